import Verif.Proof.MatrixRank
import Verif.Props.Matrix

/-!
# C164: rank, linear systems and invertibility can be read off the matrix that `reduce` leaves

Over any field, with exact arithmetic (for `double` see C126, for `Fraction` and `int` C157).  `f` are the entries before and `g`
the entries after the call.
-/

namespace Matrix
open Cpp Spec

variable {α : Type} [Field α] [DecidableEq α]

/-- **C164, rank.**  The number of rows that are not zero after `reduce` is the rank of the matrix, and the rows span the same
space as before. -/
theorem C164_rank (A : Mat α) (n m : Nat) (f : Nat → Nat → α) (hA : Holds A n m f) (hm : 0 < m) :
    ∃ R g, reduce (Arith.exact α) A = .ok R ∧ Holds R n m g ∧
      ((Finset.range n).filter fun i => ∃ j, j < m ∧ g i j ≠ 0).card = (block n m f).rank ∧
      Submodule.span α (Set.range (block n m g).row) = Submodule.span α (Set.range (block n m f).row) := by
  obtain ⟨R, g, e, hR, ⟨k, p, hk, h1, h2, h3⟩, hs⟩ := C31_reduce A n m f hA hm
  refine ⟨R, g, e, hR, ?_, span_eq_of_ker _ _ (block_ker hs)⟩
  rw [echelon_rows hk h1 h3, ← rank_eq_of_ker _ _ (block_ker hs), echelon_rank hk h1 h2 h3]

/-- **C164, linear systems.**  Let the last column be the right-hand sides of `n` equations in `c` unknowns.  `reduce` keeps the
solutions, and the system has a solution exactly if no row is left with coefficients 0 and another right-hand side. -/
theorem C164_system (A : Mat α) (n c : Nat) (f : Nat → Nat → α) (hA : Holds A n (c + 1) f) :
    ∃ R g, reduce (Arith.exact α) A = .ok R ∧ Holds R n (c + 1) g ∧
      (∀ x, SolvesSystem n c g x ↔ SolvesSystem n c f x) ∧
      ((∃ x, SolvesSystem n c f x) ↔ ¬ ∃ i, i < n ∧ (∀ j, j < c → g i j = 0) ∧ g i c ≠ 0) := by
  obtain ⟨R, g, e, hR, ⟨k, p, hk, h1, h2, h3⟩, hs⟩ := C31_reduce A n (c + 1) f hA (by omega)
  have hs' : ∀ x, SolvesSystem n c g x ↔ SolvesSystem n c f x := fun x => by
    rw [system_solves, system_solves]; exact hs _
  refine ⟨R, g, e, hR, hs', ?_, fun hno => ?_⟩
  · rintro ⟨x, hx⟩ ⟨i, hi, hz, hne⟩
    have := (hs' x).2 hx i hi
    rw [Finset.sum_eq_zero fun j hj => by rw [hz j (Finset.mem_range.1 hj), zero_mul]] at this
    exact hne this.symm
  · have hp : ∀ i, i < k → p i < c := by
      intro i hi
      by_contra hc
      have hpc : p i = c := by have := (h1 i hi).1; omega
      refine hno ⟨i, by omega, fun j hj => (h1 i hi).2.2 j (by omega), ?_⟩
      rw [← hpc, (h1 i hi).2.1]
      exact one_ne_zero
    obtain ⟨x, hx⟩ := echelon_solvable (fun i hi => ⟨hp i hi, (h1 i hi).2⟩) h2
    refine ⟨x, (hs' x).1 fun i hi => ?_⟩
    by_cases hik : i < k
    · exact hx i hik
    · rw [h3 i (by omega) hi c (by omega)]
      exact Finset.sum_eq_zero fun j hj => by rw [h3 i (by omega) hi j (by have := Finset.mem_range.1 hj; omega), zero_mul]

/-- **C164, invertible matrices.**  If the matrix has at least as many columns as rows, its first `n` columns are invertible
exactly if `reduce` leaves ones all along the diagonal. -/
theorem C164_invertible (A : Mat α) (n m : Nat) (f : Nat → Nat → α) (hA : Holds A n m f) (hm : 0 < m) (hn : n ≤ m) :
    ∃ R g, reduce (Arith.exact α) A = .ok R ∧ Holds R n m g ∧ ((block n n f).det ≠ 0 ↔ ∀ i, i < n → g i i = 1) := by
  obtain ⟨R, g, e, hR, ⟨k, p, hk, h1, h2, h3⟩, hs⟩ := C31_reduce A n m f hA hm
  obtain ⟨d1, d2⟩ := triangular hn h1 h2 h3
  refine ⟨R, g, e, hR, ?_⟩
  have : (block n n f).det ≠ 0 ↔ (block n n g).det ≠ 0 := not_congr (det_zero_iff (solves_left hn hs)).symm
  rw [this, d1]
  constructor
  · intro h i hi
    exact d2 i hi (Finset.prod_ne_zero_iff.1 h ⟨i, hi⟩ (Finset.mem_univ _))
  · intro h
    exact Finset.prod_ne_zero_iff.2 fun i _ => by rw [h i i.2]; exact one_ne_zero

/-- **C164, back substitution.**  If the `n` equations in `n` unknowns have an invertible matrix, the system has a solution, and
the solutions are the `x` computed from the last equation to the first by `x i = g i n - Σ_{j > i} g i j * x j`. -/
theorem C164_back (A : Mat α) (n : Nat) (f : Nat → Nat → α) (hA : Holds A n (n + 1) f) (hd : (block n n f).det ≠ 0) :
    ∃ R g, reduce (Arith.exact α) A = .ok R ∧ Holds R n (n + 1) g ∧ (∃ x, SolvesSystem n n f x) ∧
      ∀ x, SolvesSystem n n f x ↔ ∀ i, i < n → x i = g i n - ∑ j ∈ Finset.Ico (i + 1) n, g i j * x j := by
  obtain ⟨R, g, e, hR, hE, hs⟩ := C31_reduce A n (n + 1) f hA (by omega)
  obtain ⟨R', g', e', hR', hi⟩ := C164_invertible A n (n + 1) f hA (by omega) (by omega)
  obtain ⟨R'', g'', e'', hR'', hs', hx⟩ := C164_system A n n f hA
  rw [e] at e' e''
  cases e'
  cases e''
  obtain ⟨k, p, hk, h1, h2, h3⟩ := hE
  have hone : ∀ i, i < n → g i i = 1 := fun i h => by
    rw [← hR.entry i h i (by omega), hR'.entry i h i (by omega)]
    exact hi.1 hd i h
  have hlow : ∀ i, i < n → ∀ j, j < i → g i j = 0 := by
    intro i hin j hj
    by_cases hik : i < k
    · exact (h1 i hik).2.2 j (by have := pivot_ge h2 i hik; omega)
    · exact h3 i (by omega) hin j (by omega)
  refine ⟨R, g, e, hR, ?_, fun x => ?_⟩
  · rw [hx]
    rintro ⟨i, hin, hz, -⟩
    have := hz i hin
    rw [← hR''.entry i hin i (by omega), hR.entry i hin i (by omega), hone i hin] at this
    exact one_ne_zero this
  · have hsx : SolvesSystem n n f x ↔ SolvesSystem n n g x := by
      rw [system_solves, system_solves]; exact (hs _).symm
    rw [hsx]
    unfold SolvesSystem
    refine forall_congr' fun i => imp_congr_right fun hin => ?_
    have : ∑ j ∈ Finset.range n, g i j * x j = x i + ∑ j ∈ Finset.Ico (i + 1) n, g i j * x j := by
      rw [Finset.range_eq_Ico, ← Finset.sum_Ico_consecutive _ (Nat.zero_le i) hin.le, Finset.sum_eq_sum_Ico_succ_bot hin, hone i hin,
        one_mul, Finset.sum_eq_zero, zero_add]
      intro j hj
      rw [hlow i hin j (Finset.mem_Ico.1 hj).2, zero_mul]
    rw [this]
    exact eq_sub_iff_add_eq.symm

/-- **C164, again.**  Reducing a reduced matrix changes nothing. -/
theorem C164_again (A R : Mat α) (n m : Nat) (f : Nat → Nat → α) (hA : Holds A n m f) (hm : 0 < m)
    (h : reduce (Arith.exact α) A = .ok R) :
    ∃ R', reduce (Arith.exact α) R = .ok R' ∧ eq R R' = .ok true := by
  obtain ⟨R0, g, e, hR, ⟨k, p, hk, h1, h2, h3⟩, hs⟩ := C31_reduce A n m f hA hm
  rw [h] at e
  cases e
  unfold reduce
  rw [hR.row]
  obtain ⟨R', e', hR'⟩ := reduceLoop_again h1 h2 h3 n R 0 0 hR (by omega) hm (fun _ _ _ _ h => absurd h (by omega))
  refine ⟨R', e', ?_⟩
  rw [eq_holds hR hR']
  simp

/-! ### examples -/

/-- a matrix with given rows, for the examples -/
def sampleRows (rows : List (List ℚ)) : Nat → Nat → ℚ := fun i j => (rows.getD i []).getD j 0

example : ∃ A, ofRows (Arith.exact ℚ) [[1, 2, 3], [2, 4, 7]] = .ok A ∧ Holds A 2 3 (sampleRows [[1, 2, 3], [2, 4, 7]]) :=
  (C74_values (Arith.exact ℚ) (new (Arith.exact ℚ) 1 3) (new (Arith.exact ℚ) 1 1) 1 3 1 1 _ _
    ⟨rfl, rfl, rfl, fun _ _ _ _ => rfl⟩ ⟨rfl, rfl, rfl, fun _ _ _ _ => rfl⟩).2.2.2.2 [[1, 2, 3], [2, 4, 7]] (by simp) (by simp)

-- x + 2y = 3, 2x + 4y = 7 has no solution: a row 0 0 1 is left
example : (do
    let A ← ofRows (Arith.exact ℚ) [[1, 2, 3], [2, 4, 7]]
    Out.ok (entries (← reduce (Arith.exact ℚ) A))) = .ok [[1, 2, 3], [0, 0, 1]] := by decide +kernel

-- 2x + y = 5, x + y = 3: the diagonal is 1 1, y = 1 and x = 5/2 - 1/2 y = 2
example : (do
    let A ← ofRows (Arith.exact ℚ) [[2, 1, 5], [1, 1, 3]]
    let R ← reduce (Arith.exact ℚ) A
    let R' ← reduce (Arith.exact ℚ) R
    Out.ok (entries R, entries R')) = .ok ([[1, 1 / 2, 5 / 2], [0, 1, 1]], [[1, 1 / 2, 5 / 2], [0, 1, 1]]) := by decide +kernel

example : (block 2 2 (sampleRows [[2, 1, 5], [1, 1, 3]])).det ≠ 0 := by
  rw [Matrix.det_fin_two]
  simp [block, sampleRows]
  norm_num

end Matrix
