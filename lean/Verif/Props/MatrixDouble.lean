import Verif.Proof.MatrixDouble
import Mathlib.Algebra.Field.Rat
import Mathlib.Tactic.IntervalCases

/-! # Properties of `Matrix<double>` in binary64 (C126) -/

namespace Matrix
open Cpp Spec

/-! ### row reduction -/

/-- C126: whatever the arithmetic of `ValueType` (rounding, truncation, NaN), a matrix that `reduce` has
worked on is exactly in row echelon form with leading entries 1. -/
theorem C126_echelon {α : Type} [DecidableEq α] (ar : Arith α) (A R : Mat α) (n m : Nat) (f : Nat → Nat → α)
    (hA : Holds A n m f) (h : reduce ar A = .ok R) :
    ∃ g, Holds R n m g ∧ EchelonOf ar.zero ar.one n m g := by
  unfold reduce at h
  rw [hA.row] at h
  obtain ⟨h1, h2, h3, h4⟩ := reduceLoop_ok n A R 0 0 (fun _ => 0) hA.row hA.col (by omega) (by omega)
    ⟨fun _ h => absurd h (by omega), fun _ _ _ h => absurd h (by omega), fun _ h => absurd h (by omega),
      fun _ h => absurd h (by omega), fun _ _ _ _ h => absurd h (by omega)⟩ h
  exact ⟨R.elem, ⟨h1.trans hA.alive, h2, h3, fun _ _ _ _ => rfl⟩, h4⟩

/-- `int` division truncates, and still the form is reached. -/
example : (do
    let A ← ofRows Arith.ofInt [[2, 3, 1], [4, 5, 6]]
    Out.ok (entries (← reduce Arith.ofInt A))) = .ok [[1, 1, 0], [0, 1, 6]] := by decide +kernel

/-- C126: on doubles `reduce` always returns, also with infinities and NaN among the entries, and the
result is in row echelon form. -/
theorem C126_returns (A : Mat Dbl) (n m : Nat) (f : Nat → Nat → Dbl) (hA : Holds A n m f) (hm : 0 < m) :
    ∃ R g, reduce Arith.dbl A = .ok R ∧ Holds R n m g ∧ EchelonOf (.fin 0) (.fin 1) n m g := by
  have : ∃ R, reduce Arith.dbl A = .ok R := by
    unfold reduce
    rw [hA.row]
    exact reduceLoop_some total_dbl n A 0 0 hA.alive hA.row hA.col (by omega) hm
      fun _ _ _ _ h => absurd h (by omega)
  obtain ⟨R, e⟩ := this
  obtain ⟨g, h1, h2⟩ := C126_echelon Arith.dbl A R n m f hA e
  exact ⟨R, g, e, h1, h2⟩

example : (do
    let A ← ofRows Arith.dbl [[.nan, .fin 1], [.inf true, .fin 2]]
    Out.ok (entries (← reduce Arith.dbl A))) = .ok [[.fin 1, .nan], [.fin 0, .fin 1]] := by decide +kernel

/-- Two equal rows. -/
def twice49 : Mat ℚ := ⟨2, 2, fun _ j => if j = 0 then 49 else 1, true⟩

/-- C126 is violated by the code: rounding makes `reduce` lose solutions.  The rows (49, 1) and (49, 1)
have rank 1 and the solution (1, -49); the reduced matrix is the identity and has only the solution 0. -/
theorem C126_solutions_refuted :
    ¬ ∀ (A R : Mat Dbl) (n m : Nat) (f g : Nat → Nat → ℚ), 0 < m →
      (∀ i, i < n → ∀ j, j < m → IsDouble (f i j)) →
      Holds A n m (fun i j => .fin (f i j)) → reduce Arith.dbl A = .ok R → Holds R n m (fun i j => .fin (g i j)) →
      ∀ x, Solves n m g x ↔ Solves n m f x := by
  intro h
  have hA : Holds (convert Dbl.fin twice49) 2 2 (fun i j => .fin (twice49.elem i j)) :=
    ⟨rfl, rfl, rfl, fun _ _ _ _ => rfl⟩
  obtain ⟨R, g', e, hR, -⟩ := C126_returns _ 2 2 _ hA (by norm_num)
  have hv : (do
      let R ← reduce Arith.dbl (convert Dbl.fin twice49)
      Out.ok [R.elem 0 0, R.elem 0 1, R.elem 1 0, R.elem 1 1]) =
      .ok [.fin 1, .fin (fl ((1 : ℚ) / 49)), .fin 0, .fin 1] := by decide +kernel
  rw [e, Out.ok_bind] at hv
  injection hv with hv
  injection hv with v1 hv
  injection hv with v2 hv
  injection hv with v3 hv
  injection hv with v4 hv
  have := (h _ R 2 2 twice49.elem
    (fun i j => if i = 0 then (if j = 0 then 1 else fl ((1 : ℚ) / 49)) else if j = 0 then 0 else 1) (by norm_num)
    (by intro i hi j hj; interval_cases i <;> interval_cases j <;> decide +kernel) hA e
    ⟨hR.alive, hR.row, hR.col, by
      intro i hi j hj
      interval_cases i <;> interval_cases j
      · exact v1
      · exact v2
      · exact v3
      · exact v4⟩ (fun j => if j = 0 then 1 else -49)).2 (by
        intro i hi
        simp [twice49, Finset.sum_range_succ]) 1 (by norm_num)
  simp [Finset.sum_range_succ] at this

/-- A system with the solution (1, 1), nearly: 2^-60 x + y = 1, x + y = 2. -/
def smallPivot : Mat ℚ :=
  ⟨2, 3, fun i j => if i = 0 then (if j = 0 then 1 / 2 ^ 60 else 1) else if j = 2 then 2 else 1, true⟩

/-- C126 is violated by the code: without a choice of the pivot the solution read off the reduced matrix
can miss an equation altogether.  For 2^-60 x + y = 1, x + y = 2 the reduced system says x = 0, y = 1. -/
theorem C126_residual_refuted :
    ¬ ∀ (A R : Mat Dbl) (n m : Nat) (f g : Nat → Nat → ℚ), 0 < m →
      (∀ i, i < n → ∀ j, j < m → IsDouble (f i j) ∧ |f i j| ≤ 2) →
      Holds A n m (fun i j => .fin (f i j)) → reduce Arith.dbl A = .ok R → Holds R n m (fun i j => .fin (g i j)) →
      ∀ x : Nat → ℚ, (∀ j, |x j| ≤ 1) → Solves n m g x →
        ∀ i, i < n → |∑ j ∈ Finset.range m, f i j * x j| ≤ 1 / 2 := by
  intro h
  have hA : Holds (convert Dbl.fin smallPivot) 2 3 (fun i j => .fin (smallPivot.elem i j)) :=
    ⟨rfl, rfl, rfl, fun _ _ _ _ => rfl⟩
  obtain ⟨R, g', e, hR, -⟩ := C126_returns _ 2 3 _ hA (by norm_num)
  have hv : (do
      let R ← reduce Arith.dbl (convert Dbl.fin smallPivot)
      Out.ok [R.elem 0 0, R.elem 0 1, R.elem 0 2, R.elem 1 0, R.elem 1 1, R.elem 1 2]) =
      .ok [.fin 1, .fin (2 ^ 60), .fin (2 ^ 60), .fin 0, .fin 1, .fin 1] := by decide +kernel
  rw [e, Out.ok_bind] at hv
  injection hv with hv
  injection hv with v1 hv
  injection hv with v2 hv
  injection hv with v3 hv
  injection hv with v4 hv
  injection hv with v5 hv
  injection hv with v6 hv
  have := h _ R 2 3 smallPivot.elem
    (fun i j => if i = 0 then (if j = 0 then 1 else 2 ^ 60) else if j = 0 then 0 else 1) (by norm_num)
    (by intro i hi j hj; interval_cases i <;> interval_cases j <;> decide +kernel) hA e
    ⟨hR.alive, hR.row, hR.col, by
      intro i hi j hj
      interval_cases i <;> interval_cases j
      · exact v1
      · exact v2
      · exact v3
      · exact v4
      · exact v5
      · exact v6⟩ (fun j => if j = 0 then 0 else if j = 1 then 1 else -1)
      (by intro j; split_ifs <;> norm_num)
      (by
        intro i hi
        interval_cases i <;> simp [Finset.sum_range_succ]) 1 (by norm_num)
  simp [Finset.sum_range_succ, smallPivot] at this
  norm_num at this

/-- C126: as long as every intermediate result of exact elimination is a double, `reduce` on doubles does
exactly that elimination: the solutions are kept.  Missing, and false by `C126_solutions_refuted`: the
matrices with other intermediate results. -/
theorem C126_exact_partial (A R : Mat ℚ) (n m : Nat) (f : Nat → Nat → ℚ) (hA : Holds A n m f) (hm : 0 < m)
    (h : reduce representable A = .ok R) :
    reduce Arith.dbl (convert Dbl.fin A) = .ok (convert Dbl.fin R) ∧
    ∃ g, Holds R n m g ∧ Echelon n m g ∧ ∀ x, Solves n m g x ↔ Solves n m f x := by
  refine ⟨?_, ?_⟩
  · unfold reduce at h ⊢
    exact reduceLoop_convert hom_dbl _ _ _ _ _ h
  · have h' : reduce (Arith.exact ℚ) (convert id A) = .ok (convert id R) := by
      unfold reduce at h ⊢
      exact reduceLoop_convert hom_exact _ _ _ _ _ h
    have h'' := h'
    unfold reduce at h''
    rw [show (convert id A).row = n from hA.row] at h''
    obtain ⟨R', g, e, hR, hE, hS⟩ := reduceLoop_spec n (convert id A) 0 0 f (fun _ => 0)
      ⟨hA.alive, hA.row, hA.col, hA.entry⟩ (by omega) hm
      ⟨fun _ h => absurd h (by omega), fun _ _ _ h => absurd h (by omega), fun _ h => absurd h (by omega),
        fun _ h => absurd h (by omega), fun _ _ _ _ h => absurd h (by omega)⟩
    rw [h''] at e
    cases e
    exact ⟨g, ⟨hR.alive, hR.row, hR.col, hR.entry⟩, hE, hS⟩

/-- An elimination within the doubles, with fractions. -/
example : (do
    let A ← ofRows representable [[8, 2, 4], [2, 1, 1 / 4]]
    Out.ok (entries (← reduce representable A))) = .ok [[1, 1 / 4, 1 / 2], [0, 1, -3 / 2]] := by decide +kernel

/-! ### sums and products -/

/-- C126: `+` and `-` give in every cell the double nearest to the exact result. -/
theorem C126_sum (A B : Mat Dbl) (n m : Nat) (f g : Nat → Nat → ℚ)
    (hA : Holds A n m (fun i j => .fin (f i j))) (hB : Holds B n m (fun i j => .fin (g i j))) :
    (∃ R, plus Arith.dbl A B = .ok R ∧ Holds R n m (fun i j => Dbl.round (f i j + g i j))) ∧
    (∃ R, minus Arith.dbl A B = .ok R ∧ Holds R n m (fun i j => Dbl.round (f i j - g i j))) := by
  constructor
  · have h : (∀ R, plus Arith.dbl A B = .ok R → Holds R n m (fun i j => Dbl.round (f i j + g i j))) ∧
        (True → ∃ R, plus Arith.dbl A B = .ok R) := by
      unfold plus
      rw [hA.row, hA.col, hB.row, hB.col, if_neg (by simp)]
      refine overCells_both _ _ (fun _ _ => .fin 0) _ True ⟨rfl, rfl, rfl, fun _ _ _ _ => rfl⟩ ?_
      intro i hi j hj X _
      refine ⟨.ok (Dbl.round (f i j + g i j)), ?_, fun z h => by cases h; rfl, fun _ => ⟨_, rfl⟩⟩
      rw [hget hA hi hj, Out.ok_bind, hget hB hi hj, Out.ok_bind]
      simp only [Arith.dbl, Stats.add_dbl]
    obtain ⟨R, e⟩ := h.2 trivial
    exact ⟨R, e, h.1 R e⟩
  · have h : (∀ R, minus Arith.dbl A B = .ok R → Holds R n m (fun i j => Dbl.round (f i j - g i j))) ∧
        (True → ∃ R, minus Arith.dbl A B = .ok R) := by
      unfold minus
      rw [hA.row, hA.col, hB.row, hB.col, if_neg (by simp)]
      refine overCells_both _ _ (fun _ _ => .fin 0) _ True ⟨rfl, rfl, rfl, fun _ _ _ _ => rfl⟩ ?_
      intro i hi j hj X _
      refine ⟨.ok (Dbl.round (f i j - g i j)), ?_, fun z h => by cases h; rfl, fun _ => ⟨_, rfl⟩⟩
      rw [hget hA hi hj, Out.ok_bind, hget hB hi hj, Out.ok_bind]
      simp only [Arith.dbl, Stats.sub_dbl]
    obtain ⟨R, e⟩ := h.2 trivial
    exact ⟨R, e, h.1 R e⟩

/-- The value of the literal 0.1. -/
def tenth : ℚ := 3602879701896397 / 36028797018963968

example : Holds (⟨1, 2, fun _ j => if j = 0 then .fin tenth else .fin 3, true⟩ : Mat Dbl) 1 2
      (fun _ j => .fin (if j = 0 then tenth else 3)) ∧ IsDouble tenth :=
  ⟨⟨rfl, rfl, rfl, fun _ _ j _ => by dsimp only; split <;> rfl⟩, by decide +kernel⟩

/-- C126: every entry of the product of two double matrices is finite and close to the exact dot product,
if that does not come near the overflow threshold: the error is at most `(l+1) 2^-52` of the sum of the
absolute values of the products, and `l 2^-1074` for underflow. -/
theorem C126_times (A B : Mat Dbl) (n l m : Nat) (f g : Nat → Nat → ℚ)
    (hA : Holds A n l (fun i j => .fin (f i j))) (hB : Holds B l m (fun i j => .fin (g i j))) (hl : l ≤ 2 ^ 31)
    (hb : ∀ i, i < n → ∀ j, j < m → ∑ k ∈ Finset.range l, |f i k * g k j| ≤ 2 ^ 999) :
    ∃ (R : Mat Dbl) (q : Nat → Nat → ℚ), times Arith.dbl A B = .ok R ∧ Holds R n m (fun i j => .fin (q i j)) ∧
      ∀ i, i < n → ∀ j, j < m → |q i j - dot l f g i j| ≤
        (l + 1) / 2 ^ 52 * ∑ k ∈ Finset.range l, |f i k * g k j| + l / 2 ^ 1074 := by
  obtain ⟨R, e, h⟩ := times_dbl hA hB
  have hex : ∀ i j, ∃ q, i < n → j < m → dotDbl l (fun i j => .fin (f i j)) (fun i j => .fin (g i j)) i j = .fin q ∧
      |q - dot l f g i j| ≤ (l + 1) / 2 ^ 52 * ∑ k ∈ Finset.range l, |f i k * g k j| + l / 2 ^ 1074 := by
    intro i j
    by_cases hij : i < n ∧ j < m
    · obtain ⟨q, hq⟩ := dotDbl_err hl (hb i hij.1 j hij.2)
      exact ⟨q, fun _ _ => hq⟩
    · exact ⟨0, fun h1 h2 => absurd ⟨h1, h2⟩ hij⟩
  choose q hq using hex
  exact ⟨R, q, e, h.congr fun i hi j hj => (hq i j hi hj).1, fun i hi j hj => (hq i j hi hj).2⟩

example : ∑ k ∈ Finset.range 2, |(if k = 0 then tenth else 3) * (if k = 0 then (7 : ℚ) else -2)| ≤ 2 ^ 3 := by
  decide +kernel

example : (do
    let A ← ofRows Arith.dbl [[.fin tenth, .fin 3]]
    let B ← ofRows Arith.dbl [[.fin 3], [.fin tenth]]
    Out.ok (entries (← times Arith.dbl A B))) =
      .ok [[.fin (1351079888211149 / 2251799813685248)]] := by decide +kernel

/-- C126: products of matrices of integers are exact as long as the sums of the absolute values of the
products stay within `2^53`. -/
theorem C126_times_integer (A B : Mat Dbl) (n l m : Nat) (f g : Nat → Nat → Int)
    (hA : Holds A n l (fun i j => .fin (f i j))) (hB : Holds B l m (fun i j => .fin (g i j)))
    (hb : ∀ i, i < n → ∀ j, j < m → ∑ k ∈ Finset.range l, |f i k * g k j| ≤ 2 ^ 53) :
    ∃ R, times Arith.dbl A B = .ok R ∧ Holds R n m (fun i j => .fin ((dot l f g i j : Int) : ℚ)) := by
  obtain ⟨R, e, h⟩ := times_dbl hA hB
  exact ⟨R, e, h.congr fun i hi j hj => dotDbl_int (hb i hi j hj)⟩

example : ∑ k ∈ Finset.range 3, |((k : Int) - 1) * 2 ^ 52| ≤ 2 ^ 53 := by decide

/-- C126: beyond `2^53` the product of integer matrices is wrong: (2^53, 1) times (1, 1) gives 2^53. -/
theorem C126_times_integer_refuted :
    ¬ ∀ (A B : Mat Dbl) (n l m : Nat) (f g : Nat → Nat → Int),
      Holds A n l (fun i j => .fin (f i j)) → Holds B l m (fun i j => .fin (g i j)) →
      (∀ i, i < n → ∀ j, j < m → ∑ k ∈ Finset.range l, |f i k * g k j| ≤ 2 ^ 53 + 1) →
      ∃ R, times Arith.dbl A B = .ok R ∧ Holds R n m (fun i j => .fin ((dot l f g i j : Int) : ℚ)) := by
  intro h
  obtain ⟨R, e, hR⟩ := h ⟨1, 2, fun _ j => if j = 0 then .fin (2 ^ 53) else .fin 1, true⟩
    ⟨2, 1, fun _ _ => .fin 1, true⟩ 1 2 1 (fun _ j => if j = 0 then 2 ^ 53 else 1) (fun _ _ => 1)
    ⟨rfl, rfl, rfl, fun i _ j _ => by dsimp only; split <;> norm_num⟩
    ⟨rfl, rfl, rfl, fun i _ j _ => by simp⟩
    (by intro i _ j _; simp [Finset.sum_range_succ])
  have hv : (do
      let R ← times Arith.dbl ⟨1, 2, fun _ j => if j = 0 then .fin (2 ^ 53) else .fin 1, true⟩
        ⟨2, 1, fun _ _ => .fin 1, true⟩
      Out.ok (R.elem 0 0)) = .ok (.fin (2 ^ 53)) := by decide +kernel
  rw [e, Out.ok_bind] at hv
  injection hv with hv
  have := hR.entry 0 (by norm_num) 0 (by norm_num)
  rw [hv] at this
  injection this with this
  revert this
  simp [dot, Finset.sum_range_succ]
  norm_num

/-! ### comparison -/

/-- C126: `A == B` on doubles says whether the matrices have the same shape and, cell by cell, the same
values, none of them a NaN. -/
theorem C126_eq (A B : Mat Dbl) (n m n' m' : Nat) (f g : Nat → Nat → Dbl) (hA : Holds A n m f)
    (hB : Holds B n' m' g) :
    ∃ b, eqDbl A B = .ok b ∧
      (b = true ↔ n = n' ∧ m = m' ∧ ∀ i, i < n → ∀ j, j < m → f i j = g i j ∧ f i j ≠ .nan) := by
  have hd : ∀ x y, dblEq x y = true ↔ x = y ∧ x ≠ .nan := by
    intro x y
    cases x <;> cases y <;> simp [dblEq]
  unfold eqDbl
  rw [hA.row, hA.col, hB.row, hB.col]
  by_cases hs : n = n' ∧ m = m'
  · obtain ⟨rfl, rfl⟩ := hs
    rw [if_neg (by simp)]
    refine ⟨(List.range n).all fun i => (List.range m).all fun j => dblEq (f i j) (g i j), ?_, ?_⟩
    · refine allM_range _ _ _ fun i hi => ?_
      refine allM_range _ _ _ fun j hj => ?_
      rw [hget hA (List.mem_range.1 hi) (List.mem_range.1 hj), Out.ok_bind,
        hget hB (List.mem_range.1 hi) (List.mem_range.1 hj), Out.ok_bind]
    · simp only [List.all_eq_true, List.mem_range, hd, true_and]
  · rw [if_pos (by omega)]
    refine ⟨false, rfl, ?_⟩
    simp only [Bool.false_eq_true, false_iff]
    exact fun h => hs ⟨h.1, h.2.1⟩

/-- A matrix with a NaN differs from itself, one with an infinity does not. -/
example : (do let A ← ofRows Arith.dbl [[.nan]]; eqDbl A A) = .ok false ∧
    (do let A ← ofRows Arith.dbl [[.inf true, .fin 2]]; eqDbl A A) = .ok true := by decide +kernel

end Matrix
