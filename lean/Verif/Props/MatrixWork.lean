import Verif.Proof.MatrixWork
import Verif.Props.Matrix

/-! # C192: work of `Matrix`

`uses` counts the uses of single entries; `Holds A n m f`: `A` is an `n` by `m` matrix with the entries `f i j`. -/

namespace Matrix.Props
open Cpp Matrix.Spec

/-- C192: the counted functions are those of the model: same outcome, for all arguments. -/
theorem C192_same {α : Type} [DecidableEq α] (ar : Arith α) (A B : Mat α) :
    (Work.times ar A B).out = times ar A B ∧ (Work.plus ar ar.add A B).out = plus ar A B ∧
    (Work.plus ar ar.sub A B).out = minus ar A B ∧ (Work.plusAssign ar.add A B).out = plusAssign ar A B ∧
    (Work.plusAssign ar.sub A B).out = minusAssign ar A B ∧ (Work.eq A B).out = eq A B ∧
    (Work.copy A).out = copy A ∧ (Work.reduce ar A).out = reduce ar A :=
  ⟨Work.times_out ar A B, Work.plus_out ar A B, Work.minus_out ar A B, Work.plusAssign_out ar A B, Work.minusAssign_out ar A B,
    Work.eq_out A B, Work.out_copy A, Work.reduceLoop_out ar _ A 0 0⟩

/-- C192: the product of an `n` by `m` and an `m` by `l` matrix takes exactly `3nml + 3nl` uses of entries, whatever the
entries are. -/
theorem C192_product {α : Type} (ar : Arith α) (A B R : Mat α) (n m l : Nat) (f g : Nat → Nat → α)
    (hA : Holds A n m f) (hB : Holds B m l g) (h : times ar A B = .ok R) :
    (Work.times ar A B).uses = 3 * (n * m * l) + 3 * (n * l) := by
  rw [(Work.times_costs ar A B R (by rw [Work.times_out, h])).1, hA.row, hA.col, hB.col]

/-- C192: the sum or difference of `n` by `m` matrices takes exactly `4nm` uses of entries, `+=` and `-=` half of that, a
copy the same as these. -/
theorem C192_sum {α : Type} (ar : Arith α) (A B R : Mat α) (n m : Nat) (f : Nat → Nat → α) (hA : Holds A n m f) :
    (plus ar A B = .ok R → (Work.plus ar ar.add A B).uses = 4 * (n * m)) ∧
    (minus ar A B = .ok R → (Work.plus ar ar.sub A B).uses = 4 * (n * m)) ∧
    (plusAssign ar A B = .ok R → (Work.plusAssign ar.add A B).uses = 2 * (n * m)) ∧
    (minusAssign ar A B = .ok R → (Work.plusAssign ar.sub A B).uses = 2 * (n * m)) ∧
    (Work.copy A).uses = 2 * (n * m) := by
  rw [← hA.row, ← hA.col]
  refine ⟨fun h => ?_, fun h => ?_, fun h => ?_, fun h => ?_, ?_⟩
  · exact (Work.plus_costs ar _ A B R (by rw [Work.plus_out, h])).1
  · exact (Work.plus_costs ar _ A B R (by rw [Work.minus_out, h])).1
  · exact (Work.plusAssign_costs _ A B R (by rw [Work.plusAssign_out, h])).1
  · exact (Work.plusAssign_costs _ A B R (by rw [Work.minusAssign_out, h])).1
  · obtain ⟨R, e, _⟩ := copy_holds hA
    exact (Work.copy_costs A R (by rw [Work.out_copy, e])).1

/-- C192: a comparison uses each entry of either matrix at most once, exactly once if the matrices are equal, and none if
the sizes differ. -/
theorem C192_compare {α : Type} [DecidableEq α] (A B : Mat α) :
    (Work.eq A B).uses ≤ 2 * (A.row * A.col) ∧
    (eq A B = .ok true → (Work.eq A B).uses = 2 * (A.row * A.col)) ∧
    (A.row ≠ B.row ∨ A.col ≠ B.col → (Work.eq A B).uses = 0) := by
  have e : A.row * (A.col * 2) = 2 * (A.row * A.col) := by ring
  refine ⟨?_, fun h => ?_, fun h => ?_⟩
  · unfold Work.eq
    split
    · exact Nat.zero_le _
    · have := Work.eqRows_most A B (List.range A.row)
      rw [List.length_range, e] at this
      exact this
  · rw [← Work.eq_out] at h
    unfold Work.eq at h ⊢
    split at h
    · cases h
    · rename_i hd
      rw [if_neg hd, Work.eqRows_true A B _ h, List.length_range, e]
  · unfold Work.eq
    rw [if_pos h]
    rfl

/-- C192: to reduce an `n` by `m` matrix takes at most `(3n²m + 3nm)/2 + n²` uses of entries, whatever the entries and the
arithmetic are, and also if it ends in undefined behaviour. -/
theorem C192_reduce {α : Type} [DecidableEq α] (ar : Arith α) (A : Mat α) :
    2 * (Work.reduce ar A).uses ≤ 3 * (A.row * A.row * A.col) + 3 * (A.row * A.col) + 2 * (A.row * A.row) := by
  have := Work.reduceLoop_most ar A.row A.col A.row A 0 0 rfl rfl (by omega) (by omega)
  refine this.trans ?_
  generalize A.row = n
  generalize A.col = m
  cases n with
  | zero => simp
  | succ n =>
    simp only [Nat.sub_zero, Nat.add_sub_cancel]
    nlinarith

-- products, sums and comparisons of matrices of integers come to their end, with the numbers of uses said above
example : (do
    let A ← ofRows Arith.ofInt [[1, 2, 3], [4, 5, 6]]
    let B ← ofRows Arith.ofInt [[1], [2], [3]]
    .ok ((Work.times Arith.ofInt A B).uses, (Work.plus Arith.ofInt Arith.ofInt.add A A).uses, (Work.eq A A).uses,
      (Work.eq A B).uses)) = Out.ok (24, 24, 12, 0) := by decide +kernel
example : (do
    let A ← ofRows Arith.ofInt [[1, 2, 3], [4, 5, 6]]
    let B ← ofRows Arith.ofInt [[1], [2], [3]]
    let R ← times Arith.ofInt A B
    .ok (R.elem 0 0, R.elem 1 0)) = Out.ok (14, 32) := by decide +kernel
end Matrix.Props
