import Verif.Proof.MatrixFrac

/-! # C157: matrices of fractions and of integers -/

namespace Matrix
open Cpp Spec Fraction Fraction.Spec

/-! ### `Matrix<Fraction>` -/

/-- C157: whatever `A + B` and `A - B` return has in every cell the exact sum or difference, in lowest terms; likewise
`A += B` and `A -= B`. -/
theorem C157_sum (A B R : Mat Frac) (n m : Nat) (f g : Nat → Nat → Frac) (hA : Holds A n m f) (hB : Holds B n m g)
    (cf : ∀ i, i < n → ∀ j, j < m → Canonical (f i j)) (cg : ∀ i, i < n → ∀ j, j < m → Canonical (g i j)) :
    (plus Arith.fracBinary A B = .ok R ∨ plusAssign Arith.fracAssign A B = .ok R →
      Holds R n m fun i j => frac (val (f i j) + val (g i j))) ∧
    (minus Arith.fracBinary A B = .ok R ∨ minusAssign Arith.fracAssign A B = .ok R →
      Holds R n m fun i j => frac (val (f i j) - val (g i j))) := by
  refine ⟨?_, ?_⟩
  · rintro (h | h)
    · unfold plus at h
      rw [hA.row, hA.col, hB.row, hB.col, if_neg (by simp)] at h
      refine (overCells_both _ _ (fun _ _ => ⟨0, 0⟩) _ False
        (show Holds (new Arith.fracBinary n m) n m fun _ _ => ⟨0, 0⟩ from ⟨rfl, rfl, rfl, fun _ _ _ _ => rfl⟩) ?_).1 R h
      intro i hi j hj X _
      refine ⟨Fraction.add (f i j) (g i j), ?_, fun z h => ?_, False.elim⟩
      · rw [hget hA hi hj, Out.ok_bind, hget hB hi hj, Out.ok_bind]; rfl
      · have := add_val (cf i hi j hj) (cg i hi j hj) h
        exact frac_eq this.1 this.2
    · unfold plusAssign at h
      rw [hA.row, hA.col, hB.row, hB.col, if_neg (by simp)] at h
      refine (overCells_both _ _ f _ False hA ?_).1 R h
      intro i hi j hj X hX
      refine ⟨Fraction.add (f i j) (g i j), ?_, fun z h => ?_, False.elim⟩
      · rw [hget hX hi hj, Out.ok_bind, hget hB hi hj, Out.ok_bind, if_neg (by omega), ← addAssign_eq]; rfl
      · have := add_val (cf i hi j hj) (cg i hi j hj) h
        exact frac_eq this.1 this.2
  · rintro (h | h)
    · unfold minus at h
      rw [hA.row, hA.col, hB.row, hB.col, if_neg (by simp)] at h
      refine (overCells_both _ _ (fun _ _ => ⟨0, 0⟩) _ False
        (show Holds (new Arith.fracBinary n m) n m fun _ _ => ⟨0, 0⟩ from ⟨rfl, rfl, rfl, fun _ _ _ _ => rfl⟩) ?_).1 R h
      intro i hi j hj X _
      refine ⟨Fraction.sub (f i j) (g i j), ?_, fun z h => ?_, False.elim⟩
      · rw [hget hA hi hj, Out.ok_bind, hget hB hi hj, Out.ok_bind]; rfl
      · have := sub_val (cf i hi j hj) (cg i hi j hj) h
        exact frac_eq this.1 this.2
    · unfold minusAssign at h
      rw [hA.row, hA.col, hB.row, hB.col, if_neg (by simp)] at h
      refine (overCells_both _ _ f _ False hA ?_).1 R h
      intro i hi j hj X hX
      refine ⟨Fraction.sub (f i j) (g i j), ?_, fun z h => ?_, False.elim⟩
      · rw [hget hX hi hj, Out.ok_bind, hget hB hi hj, Out.ok_bind, if_neg (by omega), ← subAssign_eq]; rfl
      · have := sub_val (cf i hi j hj) (cg i hi j hj) h
        exact frac_eq this.1 this.2

/-- C157: with numerators and denominators below 2^15 they return. -/
theorem C157_sum_defined (A B : Mat Frac) (n m : Nat) (f g : Nat → Nat → ℚ) (hA : Holds A n m fun i j => frac (f i j))
    (hB : Holds B n m fun i j => frac (g i j))
    (hs : ∀ i, i < n → ∀ j, j < m → Short (f i j) ∧ Short (g i j)) :
    (∃ R, plus Arith.fracBinary A B = .ok R) ∧ (∃ R, minus Arith.fracBinary A B = .ok R) ∧
    (∃ R, plusAssign Arith.fracAssign A B = .ok R) ∧ ∃ R, minusAssign Arith.fracAssign A B = .ok R := by
  refine ⟨?_, ?_, ?_, ?_⟩
  · unfold plus
    rw [hA.row, hA.col, hB.row, hB.col, if_neg (by simp)]
    refine (overCells_both (v := fun i j => frac (f i j + g i j)) _ _ (fun _ _ => ⟨0, 0⟩) True
      (show Holds (new Arith.fracBinary n m) n m fun _ _ => ⟨0, 0⟩ from ⟨rfl, rfl, rfl, fun _ _ _ _ => rfl⟩) ?_).2 trivial
    intro i hi j hj X _
    have h := (frac_ops (hs i hi j hj).1 (hs i hi j hj).2).1
    refine ⟨Fraction.add (frac (f i j)) (frac (g i j)), ?_, fun z e => ?_, fun _ => ⟨_, h⟩⟩
    · rw [hget hA hi hj, Out.ok_bind, hget hB hi hj, Out.ok_bind]; rfl
    · rw [h] at e; cases e; rfl
  · unfold minus
    rw [hA.row, hA.col, hB.row, hB.col, if_neg (by simp)]
    refine (overCells_both (v := fun i j => frac (f i j - g i j)) _ _ (fun _ _ => ⟨0, 0⟩) True
      (show Holds (new Arith.fracBinary n m) n m fun _ _ => ⟨0, 0⟩ from ⟨rfl, rfl, rfl, fun _ _ _ _ => rfl⟩) ?_).2 trivial
    intro i hi j hj X _
    have h := (frac_ops (hs i hi j hj).1 (hs i hi j hj).2).2.1
    refine ⟨Fraction.sub (frac (f i j)) (frac (g i j)), ?_, fun z e => ?_, fun _ => ⟨_, h⟩⟩
    · rw [hget hA hi hj, Out.ok_bind, hget hB hi hj, Out.ok_bind]; rfl
    · rw [h] at e; cases e; rfl
  · unfold plusAssign
    rw [hA.row, hA.col, hB.row, hB.col, if_neg (by simp)]
    refine (overCells_both (v := fun i j => frac (f i j + g i j)) _ _ _ True hA ?_).2 trivial
    intro i hi j hj X hX
    have h := (frac_ops (hs i hi j hj).1 (hs i hi j hj).2).1
    refine ⟨Fraction.add (frac (f i j)) (frac (g i j)), ?_, fun z e => ?_, fun _ => ⟨_, h⟩⟩
    · rw [hget hX hi hj, Out.ok_bind, hget hB hi hj, Out.ok_bind, if_neg (by omega), ← addAssign_eq]; rfl
    · rw [h] at e; cases e; rfl
  · unfold minusAssign
    rw [hA.row, hA.col, hB.row, hB.col, if_neg (by simp)]
    refine (overCells_both (v := fun i j => frac (f i j - g i j)) _ _ _ True hA ?_).2 trivial
    intro i hi j hj X hX
    have h := (frac_ops (hs i hi j hj).1 (hs i hi j hj).2).2.1
    refine ⟨Fraction.sub (frac (f i j)) (frac (g i j)), ?_, fun z e => ?_, fun _ => ⟨_, h⟩⟩
    · rw [hget hX hi hj, Out.ok_bind, hget hB hi hj, Out.ok_bind, if_neg (by omega), ← subAssign_eq]; rfl
    · rw [h] at e; cases e; rfl

example : Short (-7 / 3) ∧ Canonical (frac (1 / 2)) ∧ (do
    let A ← ofRows Arith.fracBinary [[⟨1, 2⟩, ⟨-7, 3⟩]]
    let B ← ofRows Arith.fracBinary [[⟨1, 3⟩, ⟨1, 3⟩]]
    Out.ok (entries (← plus Arith.fracBinary A B), entries (← minus Arith.fracBinary A B))) =
      .ok ([[⟨5, 6⟩, ⟨-2, 1⟩]], [[⟨1, 6⟩, ⟨-8, 3⟩]]) := by
  refine ⟨by decide +kernel, canonical_frac (by decide +kernel), by decide +kernel⟩

/-- C157 is violated by the code: `Matrix<Fraction>(n, m)` is not the zero matrix.  `memset` makes the denominators 0. -/
theorem C157_new_refuted : (new Arith.fracBinary 2 2).elem 0 0 = ⟨0, 0⟩ ∧ Fraction.eq ⟨0, 0⟩ ⟨0, 1⟩ = false := by decide

/-- C157 is violated by the code: no product of matrices of fractions with at least one row, column and summand is ever
computed; `*=` fails for the same reason.  The first sum is that of a cell with denominator 0, which ends the program. -/
theorem C157_product_refuted (A B : Mat Frac) (hr : 0 < A.row) (hm : 0 < A.col) (hc : 0 < B.col) (R : Mat Frac) :
    times Arith.fracAssign A B ≠ .ok R ∧ timesAssign Arith.fracAssign A B ≠ .ok R := by
  constructor
  · intro h
    unfold times at h
    split at h
    · cases h
    · obtain ⟨P, e, -⟩ := Out.bind_eq_ok.1 h
      exact product_raw A B hr hm hc P e
  · intro h
    unfold timesAssign at h
    split at h
    · cases h
    · obtain ⟨P, e, -⟩ := Out.bind_eq_ok.1 h
      exact product_raw A B hr hm hc P e

example : (do
    let A ← ofRows Arith.fracAssign [[⟨1, 1⟩]]
    Out.ok (entries (← times Arith.fracAssign A A))) = .exit := by decide +kernel

/-- C157 is violated by the code: `reduce` changes the solutions even of exact fractions.  The row (2, 1) becomes (1, 0),
since `/=` divides numerators and denominators as `int`s; with (1/3, 1/2) it ends the program. -/
theorem C157_reduce_refuted :
    (do
      let A ← ofRows Arith.fracReduce [[⟨2, 1⟩, ⟨1, 1⟩]]
      Out.ok (entries (← reduce Arith.fracReduce A))) = .ok [[⟨1, 1⟩, ⟨0, 1⟩]] ∧
    (do
      let A ← ofRows Arith.fracReduce [[⟨1, 3⟩, ⟨1, 2⟩]]
      Out.ok (entries (← reduce Arith.fracReduce A))) = .exit := by
  constructor <;> decide +kernel

/-- C157: if in exact elimination all numbers are short and every division divides numerator by numerator and denominator
by denominator without remainder, `reduce` on fractions does exactly that elimination, and the solutions are kept.
Missing, and false by `C157_reduce_refuted`: other divisions. -/
theorem C157_reduce_partial (A R : Mat ℚ) (n m : Nat) (f : Nat → Nat → ℚ) (hA : Holds A n m f) (hm : 0 < m)
    (h : reduce shortFractions A = .ok R) :
    reduce Arith.fracReduce (convert frac A) = .ok (convert frac R) ∧
    ∃ g, Holds R n m g ∧ Echelon n m g ∧ ∀ x, Solves n m g x ↔ Solves n m f x := by
  refine ⟨?_, ?_⟩
  · unfold reduce at h ⊢
    exact reduceLoop_convert hom_frac _ _ _ _ _ h
  · have h' : reduce (Arith.exact ℚ) (convert id A) = .ok (convert id R) := by
      unfold reduce at h ⊢
      exact reduceLoop_convert hom_short _ _ _ _ _ h
    obtain ⟨g, hR, hE, hS⟩ := reduce_solves (A := convert id A) ⟨hA.alive, hA.row, hA.col, hA.entry⟩ hm h'
    exact ⟨g, ⟨hR.alive, hR.row, hR.col, hR.entry⟩, hE, hS⟩

example : (do
    let A ← ofRows shortFractions [[1 / 2, 3 / 4, 1 / 2], [1 / 3, 1, 7 / 12]]
    Out.ok (entries (← reduce shortFractions A))) = .ok [[1, 3 / 2, 1], [0, 1, 1 / 2]] := by decide +kernel

/-! ### `Matrix<int>` -/

/-- C157 is violated by the code: `reduce` of an integer matrix loses solutions.  The row (2, 1) with the solution (1, -2)
becomes (1, 0). -/
theorem C157_int_refuted : (do
      let A ← ofRows Arith.ofInt [[2, 1]]
      Out.ok (entries (← reduce Arith.ofInt A))) = .ok [[1, 0]] ∧
    Solves 1 2 (fun _ j => if j = 0 then (2 : ℚ) else 1) (fun j => if j = 0 then 1 else -2) ∧
    ¬ Solves 1 2 (fun _ j => if j = 0 then (1 : ℚ) else 0) (fun j => if j = 0 then 1 else -2) := by
  refine ⟨by decide +kernel, ?_, ?_⟩
  · intro i _; simp [Finset.sum_range_succ]
  · intro h
    have := h 0 (by omega)
    simp [Finset.sum_range_succ] at this

/-- C157: if all divisions of the elimination leave no remainder and nothing overflows, `reduce` of an integer matrix keeps
the rational solutions.  Missing, and false by `C157_int_refuted`: divisions with a remainder. -/
theorem C157_int_partial (A R : Mat Int) (n m : Nat) (f : Nat → Nat → Int) (hA : Holds A n m f) (hm : 0 < m)
    (h : reduce exactInts A = .ok R) :
    reduce Arith.ofInt A = .ok R ∧ ∃ g, Holds R n m g ∧ Echelon n m g ∧
      ∀ x : Nat → ℚ, Solves n m (fun i j => (g i j : ℚ)) x ↔ Solves n m (fun i j => (f i j : ℚ)) x := by
  have h1 : reduce Arith.ofInt (convert id A) = .ok (convert id R) := by
    unfold reduce at h ⊢
    exact reduceLoop_convert hom_ints _ _ _ _ _ h
  have h2 : reduce (Arith.exact ℚ) (convert (fun x : Int => (x : ℚ)) A) = .ok (convert (fun x : Int => (x : ℚ)) R) := by
    unfold reduce at h ⊢
    exact reduceLoop_convert hom_rat _ _ _ _ _ h
  refine ⟨h1, ?_⟩
  obtain ⟨g, hR, ⟨k, p, hk, h3, h4, h5⟩, hS⟩ := reduce_solves (A := convert (fun x : Int => (x : ℚ)) A)
    (f := fun i j => (f i j : ℚ)) ⟨hA.alive, hA.row, hA.col, fun i hi j hj => by
      show ((A.elem i j : Int) : ℚ) = _; rw [hA.entry i hi j hj]⟩ hm h2
  have hg : ∀ i, i < n → ∀ j, j < m → ((R.elem i j : Int) : ℚ) = g i j := hR.entry
  refine ⟨R.elem, ⟨hR.alive, hR.row, hR.col, fun _ _ _ _ => rfl⟩, ⟨k, p, hk, fun i hi => ?_, h4, fun i hi hin j hj => ?_⟩,
    fun x => ?_⟩
  · obtain ⟨a, b, c⟩ := h3 i hi
    refine ⟨a, ?_, fun j hj => ?_⟩
    · have := hg i (by omega) (p i) a
      rw [b] at this
      exact_mod_cast this
    · have := hg i (by omega) j (by omega)
      rw [c j hj] at this
      exact_mod_cast this
  · have := hg i hin j hj
    rw [h5 i hi hin j hj] at this
    exact_mod_cast this
  · rw [← hS x]
    unfold Solves
    refine forall_congr' fun i => forall_congr' fun hi => ?_
    have : ∑ j ∈ Finset.range m, ((R.elem i j : Int) : ℚ) * x j = ∑ j ∈ Finset.range m, g i j * x j :=
      Finset.sum_congr rfl fun j hj => by rw [hg i hi j (Finset.mem_range.1 hj)]
    dsimp only
    rw [this]

example : (do
    let A ← ofRows exactInts [[0, 2, 4], [-1, 1, 1], [2, 4, 7]]
    Out.ok (entries (← reduce exactInts A))) = .ok [[1, -1, -1], [0, 1, 2], [0, 0, 1]] := by decide +kernel

end Matrix
