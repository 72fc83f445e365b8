import Verif.Proof.MatrixReduce
import Mathlib.Algebra.Order.BigOperators.Ring.Finset
import Mathlib.Algebra.Order.Field.Rat

/-! # Properties C29–C31, C74: `Matrix`

`Spec.Holds A n m f`: `A` is an intact `n × m` matrix with entries `f i j`. -/

namespace Matrix
open Cpp Spec

/-! ### sum, difference, product -/

/-- C29: whenever sums, differences and products return, they are the mathematical ones (any arithmetic
that is exact when defined, e.g. `int` with undefined overflow). -/
theorem C29_sound {α : Type} [Ring α] (ar : Arith α) (hs : Sound ar) (A B R : Mat α) (n m l : Nat)
    (f g : Nat → Nat → α) (hA : Holds A n m f) :
    (Holds B n m g → plus ar A B = .ok R → Holds R n m (fun i j => f i j + g i j)) ∧
    (Holds B n m g → minus ar A B = .ok R → Holds R n m (fun i j => f i j - g i j)) ∧
    (Holds B n m g → plusAssign ar A B = .ok R → Holds R n m (fun i j => f i j + g i j)) ∧
    (Holds B n m g → minusAssign ar A B = .ok R → Holds R n m (fun i j => f i j - g i j)) ∧
    (Holds B m l g → times ar A B = .ok R →
      Holds R n l (fun i j => ∑ k ∈ Finset.range m, f i k * g k j)) := by
  refine ⟨fun hB h => ?_, fun hB h => ?_, fun hB h => ?_, fun hB h => ?_, fun hB h => ?_⟩
  · exact (plus_both hs hA hB False (fun h => h.elim)).1 R h
  · exact (minus_both hs hA hB False (fun h => h.elim)).1 R h
  · exact (plusAssign_both hs hA hB False (fun h => h.elim)).1 R h
  · exact (minusAssign_both hs hA hB False (fun h => h.elim)).1 R h
  · exact (times_both hs hA hB False (fun h => h.elim)).1 R h

example : (do
    let A ← ofRows Arith.ofInt [[1, 2], [3, 4]]
    let B ← ofRows Arith.ofInt [[5, 6, 7], [8, 9, 10]]
    Out.ok (entries (← times Arith.ofInt A B))) = .ok [[21, 24, 27], [47, 54, 61]] := by decide +kernel

/-- C29: over a field the operations always return for matching shapes. -/
theorem C29_exact {α : Type} [Field α] [DecidableEq α] (A B : Mat α) (n m l : Nat)
    (f g : Nat → Nat → α) (hA : Holds A n m f) :
    (Holds B n m g → ∃ R, plus (Arith.exact α) A B = .ok R ∧ Holds R n m (fun i j => f i j + g i j)) ∧
    (Holds B n m g → ∃ R, minus (Arith.exact α) A B = .ok R ∧ Holds R n m (fun i j => f i j - g i j)) ∧
    (Holds B n m g → ∃ R, plusAssign (Arith.exact α) A B = .ok R ∧ Holds R n m (fun i j => f i j + g i j)) ∧
    (Holds B n m g → ∃ R, minusAssign (Arith.exact α) A B = .ok R ∧ Holds R n m (fun i j => f i j - g i j)) ∧
    (Holds B m l g → ∃ R, times (Arith.exact α) A B = .ok R ∧
      Holds R n l (fun i j => ∑ k ∈ Finset.range m, f i k * g k j)) := by
  have hs := exact_sound α
  refine ⟨fun hB => ?_, fun hB => ?_, fun hB => ?_, fun hB => ?_, fun hB => ?_⟩
  · have := plus_both hs hA hB True (fun _ _ _ _ _ => ⟨_, rfl⟩)
    obtain ⟨R, e⟩ := this.2 trivial
    exact ⟨R, e, this.1 R e⟩
  · have := minus_both hs hA hB True (fun _ _ _ _ _ => ⟨_, rfl⟩)
    obtain ⟨R, e⟩ := this.2 trivial
    exact ⟨R, e, this.1 R e⟩
  · have := plusAssign_both hs hA hB True (fun _ _ _ _ _ => ⟨_, rfl⟩)
    obtain ⟨R, e⟩ := this.2 trivial
    exact ⟨R, e, this.1 R e⟩
  · have := minusAssign_both hs hA hB True (fun _ _ _ _ _ => ⟨_, rfl⟩)
    obtain ⟨R, e⟩ := this.2 trivial
    exact ⟨R, e, this.1 R e⟩
  · have := times_both hs hA hB True (fun _ _ _ _ _ _ _ => ⟨⟨_, rfl⟩, ⟨_, rfl⟩⟩)
    obtain ⟨R, e⟩ := this.2 trivial
    exact ⟨R, e, this.1 R e⟩

example : Holds (new (Arith.exact ℚ) 2 3) 2 3 (fun _ _ => 0) := ⟨rfl, rfl, rfl, fun _ _ _ _ => rfl⟩

/-- C29: `int` matrices: sums and differences return if the results fit, products if the sums of the
absolute values of the terms fit. -/
theorem C29_int (A B : Mat Int) (n m l : Nat) (f g : Nat → Nat → Int) (hA : Holds A n m f) :
    (Holds B n m g → (∀ i, i < n → ∀ j, j < m → IsInt (f i j + g i j)) →
      ∃ R, plus Arith.ofInt A B = .ok R ∧ Holds R n m (fun i j => f i j + g i j)) ∧
    (Holds B n m g → (∀ i, i < n → ∀ j, j < m → IsInt (f i j - g i j)) →
      ∃ R, minus Arith.ofInt A B = .ok R ∧ Holds R n m (fun i j => f i j - g i j)) ∧
    (Holds B m l g →
      (∀ i, i < n → ∀ j, j < l → ∑ k ∈ Finset.range m, |f i k * g k j| ≤ INT_MAX) →
      ∃ R, times Arith.ofInt A B = .ok R ∧
        Holds R n l (fun i j => ∑ k ∈ Finset.range m, f i k * g k j)) := by
  have hs := ofInt_sound
  refine ⟨fun hB h => ?_, fun hB h => ?_, fun hB h => ?_⟩
  · have := plus_both hs hA hB True (fun _ i hi j hj => ⟨_, int_ok (h i hi j hj)⟩)
    obtain ⟨R, e⟩ := this.2 trivial
    exact ⟨R, e, this.1 R e⟩
  · have := minus_both hs hA hB True (fun _ i hi j hj => ⟨_, int_ok (h i hi j hj)⟩)
    obtain ⟨R, e⟩ := this.2 trivial
    exact ⟨R, e, this.1 R e⟩
  · have fits : ∀ x : Int, |x| ≤ INT_MAX → IsInt x := by
      intro x hx
      have := abs_le.mp hx
      exact ⟨by unfold INT_MIN; unfold INT_MAX at this; omega, this.2⟩
    have := times_both hs hA hB True (fun _ i hi j hj k hk => by
      have hb := h i hi j hj
      have part : ∀ t, t ≤ m → ∑ k ∈ Finset.range t, |f i k * g k j| ≤ INT_MAX := fun t ht =>
        le_trans (Finset.sum_le_sum_of_subset_of_nonneg (Finset.range_mono ht) fun _ _ _ => abs_nonneg _) hb
      refine ⟨⟨_, int_ok (fits _ ?_)⟩, ⟨_, int_ok (fits _ ?_)⟩⟩
      · refine le_trans ?_ hb
        exact Finset.single_le_sum (f := fun k => |f i k * g k j|) (fun _ _ => abs_nonneg _) (Finset.mem_range.mpr hk)
      · have e : dot k f g i j + f i k * g k j = ∑ t ∈ Finset.range (k + 1), f i t * g t j := by
          rw [Finset.sum_range_succ]; rfl
        rw [e]
        exact le_trans (Finset.abs_sum_le_sum_abs _ _) (part (k + 1) hk))
    obtain ⟨R, e⟩ := this.2 trivial
    exact ⟨R, e, this.1 R e⟩

example : ∑ k ∈ Finset.range 2, |(fun _ _ => 3 : Nat → Nat → Int) 0 k * (fun _ _ => -4 : Nat → Nat → Int) k 0| ≤ INT_MAX := by
  decide

/-- C29: operands of mismatched shapes abort the program. -/
theorem C29_mismatch {α : Type} (ar : Arith α) (A B : Mat α) :
    (¬ (A.row = B.row ∧ A.col = B.col) → plus ar A B = .exit ∧ minus ar A B = .exit ∧
      plusAssign ar A B = .exit ∧ minusAssign ar A B = .exit) ∧
    (A.col ≠ B.row → times ar A B = .exit) := by
  refine ⟨fun h => ?_, fun h => ?_⟩
  · simp [plus, minus, plusAssign, minusAssign, h]
  · simp [times, h]

example : (new Arith.ofInt 2 3).col ≠ (new Arith.ofInt 2 3).row := by decide

/-- C29: the product is associative and distributes over the sum, as seen by `operator==`. -/
theorem C29_ring_laws {α : Type} [Field α] [DecidableEq α] (A B B' C : Mat α) (n m l k : Nat)
    (f g g' h : Nat → Nat → α) (hA : Holds A n m f) (hB : Holds B m l g) (hB' : Holds B' m l g')
    (hC : Holds C l k h) :
    (do
      let P ← times (Arith.exact α) (← times (Arith.exact α) A B) C
      let Q ← times (Arith.exact α) A (← times (Arith.exact α) B C)
      eq P Q) = .ok true ∧
    (do
      let P ← times (Arith.exact α) A (← plus (Arith.exact α) B B')
      let Q ← plus (Arith.exact α) (← times (Arith.exact α) A B) (← times (Arith.exact α) A B')
      eq P Q) = .ok true := by
  constructor
  · obtain ⟨AB, e1, h1⟩ := (C29_exact A B n m l f g hA).2.2.2.2 hB
    obtain ⟨P, e2, h2⟩ := (C29_exact AB C n l k _ h h1).2.2.2.2 hC
    obtain ⟨BC, e3, h3⟩ := (C29_exact B C m l k g h hB).2.2.2.2 hC
    obtain ⟨Q, e4, h4⟩ := (C29_exact A BC n m k f _ hA).2.2.2.2 h3
    rw [e1, Out.ok_bind, e2, Out.ok_bind, e3, Out.ok_bind, e4, Out.ok_bind, eq_holds h2 h4]
    congr 1
    rw [decide_eq_true_eq]
    refine ⟨rfl, rfl, fun i _ j _ => ?_⟩
    simp only [Finset.sum_mul, Finset.mul_sum]
    rw [Finset.sum_comm]
    exact Finset.sum_congr rfl fun _ _ => Finset.sum_congr rfl fun _ _ => mul_assoc _ _ _
  · obtain ⟨S, e1, h1⟩ := (C29_exact B B' m l k g g' hB).1 hB'
    obtain ⟨P, e2, h2⟩ := (C29_exact A S n m l f _ hA).2.2.2.2 h1
    obtain ⟨AB, e3, h3⟩ := (C29_exact A B n m l f g hA).2.2.2.2 hB
    obtain ⟨AB', e4, h4⟩ := (C29_exact A B' n m l f g' hA).2.2.2.2 hB'
    obtain ⟨Q, e5, h5⟩ := (C29_exact AB AB' n l k _ _ h3).1 h4
    rw [e1, Out.ok_bind, e2, Out.ok_bind, e3, Out.ok_bind, e4, Out.ok_bind, e5, Out.ok_bind, eq_holds h2 h5]
    congr 1
    rw [decide_eq_true_eq]
    refine ⟨rfl, rfl, fun i _ j _ => ?_⟩
    rw [← Finset.sum_add_distrib]
    exact Finset.sum_congr rfl fun _ _ => mul_add _ _ _

/-! ### `*=` and `pow` -/

/-- C30 refuted: `A *= B` frees the rows of `A` twice, for every pair of matrices of matching shapes. -/
theorem C30_timesAssign_refuted {α : Type} [Field α] [DecidableEq α] (A B : Mat α) (n m l : Nat)
    (f g : Nat → Nat → α) (hA : Holds A n m f) (hB : Holds B m l g) :
    timesAssign (Arith.exact α) A B = .ub := by
  obtain ⟨R, e⟩ := (product_both (exact_sound α) hA hB True (fun _ _ _ _ _ _ _ => ⟨⟨_, rfl⟩, ⟨_, rfl⟩⟩)).2 trivial
  unfold timesAssign
  rw [if_neg (by rw [hA.col, hB.row]; simp), e, Out.ok_bind]
  unfold clear
  rw [if_pos hA.alive, Out.ok_bind]
  rfl

example : Holds (new (Arith.exact ℚ) 2 2) 2 2 (fun _ _ => 0) := ⟨rfl, rfl, rfl, fun _ _ _ _ => rfl⟩

/-- C30: the power with exponent 1 is the matrix itself.  Missing: every other exponent, see below. -/
theorem C30_pow_one_partial {α : Type} (ar : Arith α) (A : Mat α) (n : Nat) (f : Nat → Nat → α)
    (hA : Holds A n n f) (fuel : Nat) :
    ∃ R, pow ar A (fuel + 1) 1 = .ok R ∧ Holds R n n f := by
  unfold pow
  rw [if_pos rfl]
  exact copy_holds hA

example : (do
    let A ← ofRows Arith.ofInt [[1, 2], [3, 4]]
    Out.ok (entries (← pow Arith.ofInt A 9 1))) = .ok [[1, 2], [3, 4]] := by decide +kernel

/-- C30 refuted: exponents that are powers of two give the matrix itself, exponent 0 never returns, all
others are undefined. -/
theorem C30_pow_refuted {α : Type} [Field α] [DecidableEq α] (A : Mat α) (n : Nat) (f : Nat → Nat → α)
    (hA : Holds A n n f) :
    (∀ fuel, pow (Arith.exact α) A fuel 0 = .diverge) ∧
    (∀ k fuel, ∃ R, pow (Arith.exact α) A (fuel + k + 1) (2 ^ k) = .ok R ∧ Holds R n n f) ∧
    (∀ e, e ≠ 0 → (∀ k, e ≠ 2 ^ k) → ∀ fuel, pow (Arith.exact α) A (fuel + e) e = .ub) := by
  have p2 : ∀ k fuel, ∃ R, pow (Arith.exact α) A (fuel + k + 1) (2 ^ k) = .ok R ∧ Holds R n n f := by
    intro k
    induction k with
    | zero => intro fuel; exact C30_pow_one_partial _ A n f hA fuel
    | succ k ih =>
      intro fuel
      obtain ⟨R, e, h⟩ := ih fuel
      refine ⟨R, ?_, h⟩
      have hp : 0 < 2 ^ k := Nat.two_pow_pos k
      unfold pow
      rw [if_neg (by rw [pow_succ]; omega), show 2 ^ (k + 1) / 2 = 2 ^ k by rw [pow_succ]; omega,
        show fuel + (k + 1) = fuel + k + 1 by omega, e, Out.ok_bind,
        if_neg (by rw [pow_succ]; omega)]
  refine ⟨?_, p2, ?_⟩
  · intro fuel
    induction fuel with
    | zero => rfl
    | succ fuel ih =>
      unfold pow
      rw [if_neg (by omega), show 0 / 2 = 0 from rfl, ih]; rfl
  · intro e
    induction e using Nat.strongRecOn with
    | _ e ih =>
      intro h0 h1 fuel
      have he1 : e ≠ 1 := fun h => h1 0 (by rw [h]; rfl)
      obtain ⟨d, hd⟩ : ∃ d, fuel + e = d + 1 := ⟨fuel + e - 1, by omega⟩
      rw [hd]
      unfold pow
      rw [if_neg he1]
      by_cases hq : ∃ k, e / 2 = 2 ^ k
      · obtain ⟨k, hk⟩ := hq
        have hodd : e % 2 = 1 := by
          by_contra hc
          exact h1 (k + 1) (by rw [pow_succ]; omega)
        have hlt : k < 2 ^ k := Nat.lt_two_pow_self
        obtain ⟨R, eR, hR⟩ := p2 k (d - k - 1)
        rw [show d - k - 1 + k + 1 = d by omega] at eR
        rw [hk, eR, Out.ok_bind, if_pos hodd]
        exact C30_timesAssign_refuted R A n n n f f hR hA
      · rw [show d = (d - e / 2) + e / 2 by omega]
        rw [ih (e / 2) (by omega) (by omega) (fun k hk => hq ⟨k, hk⟩) (d - e / 2)]
        rfl

example : (do
    let A ← ofRows Arith.ofInt [[2]]
    Out.ok (entries (← pow Arith.ofInt A 9 2))) = .ok [[2]] := by decide +kernel

/-! ### row reduction -/

/-- C31: over a field `reduce` returns, gives a row echelon form with leading entries 1, and keeps the
solutions of the homogeneous system. -/
theorem C31_reduce {α : Type} [Field α] [DecidableEq α] (A : Mat α) (n m : Nat) (f : Nat → Nat → α)
    (hA : Holds A n m f) (hm : 0 < m) :
    ∃ R g, reduce (Arith.exact α) A = .ok R ∧ Holds R n m g ∧ Echelon n m g ∧
      ∀ x, Solves n m g x ↔ Solves n m f x := by
  unfold reduce
  rw [hA.row]
  exact reduceLoop_spec n A 0 0 f (fun _ => 0) hA (by omega) hm
    ⟨fun _ h => absurd h (by omega), fun _ _ _ h => absurd h (by omega), fun _ h => absurd h (by omega),
      fun _ h => absurd h (by omega), fun _ _ _ _ h => absurd h (by omega)⟩

example : (do
    let A ← ofRows (Arith.exact ℚ) [[0, 2, 4], [1, 1, 1], [2, 4, 7]]
    Out.ok (entries (← reduce (Arith.exact ℚ) A))) = .ok [[1, 1, 1], [0, 1, 2], [0, 0, 1]] := by decide +kernel

/-- C31: a matrix with rows but without columns makes `reduce` use an uninitialised variable. -/
theorem C31_no_columns {α : Type} [DecidableEq α] (ar : Arith α) (A : Mat α) (hr : 0 < A.row) (hc : A.col = 0) :
    reduce ar A = .ub := by
  unfold reduce
  obtain ⟨k, hk⟩ : ∃ k, A.row = k + 1 := ⟨A.row - 1, by omega⟩
  rw [hk]
  unfold reduceLoop seek
  rw [if_neg (by omega)]
  rfl

example : 0 < (new Arith.ofInt 2 0).row ∧ (new Arith.ofInt 2 0).col = 0 := by decide

/-! ### construction, copying, equality -/

/-- C74: a matrix built from rows of equal length has these rows; copies and assigned matrices hold the
same entries; `==` holds exactly for equal shapes and entries. -/
theorem C74_values {α : Type} [DecidableEq α] (ar : Arith α) (A B : Mat α) (n m n' m' : Nat) (f g : Nat → Nat → α)
    (hA : Holds A n m f) (hB : Holds B n' m' g) :
    (∃ R, copy A = .ok R ∧ Holds R n m f) ∧ (∃ R, assign B A = .ok R ∧ Holds R n m f) ∧
    eq A B = .ok (decide (n = n' ∧ m = m' ∧ ∀ i, i < n → ∀ j, j < m → f i j = g i j)) ∧
    ne A B = .ok (decide (¬ (n = n' ∧ m = m' ∧ ∀ i, i < n → ∀ j, j < m → f i j = g i j))) ∧
    (∀ ini : List (List α), ini ≠ [] → (∀ r ∈ ini, r.length = m) → ∃ R, ofRows ar ini = .ok R ∧
      Holds R ini.length m (fun i j => (ini.getD i []).getD j ar.zero)) := by
  refine ⟨copy_holds hA, ?_, eq_holds hA hB, ?_, ?_⟩
  · unfold assign clear
    rw [if_pos hB.alive]
    exact copy_holds hA
  · unfold ne
    rw [eq_holds hA hB, Out.ok_bind, decide_not]
  · intro ini hne h
    cases ini with
    | nil => exact absurd rfl hne
    | cons a l =>
      unfold ofRows
      dsimp only
      have ha := h a (by simp)
      rw [if_pos (by intro r hr; rw [ha, h r hr])]
      exact ⟨_, rfl, rfl, rfl, ha, fun _ _ _ _ => rfl⟩

example : Holds (new Arith.ofInt 2 3) 2 3 (fun _ _ => 0) := ⟨rfl, rfl, rfl, fun _ _ _ _ => rfl⟩

example : (do
    let A ← ofRows Arith.ofInt [[1, 2], [3, 4]]
    let B ← assign (new Arith.ofInt 5 1) A
    Out.ok (entries B, ← eq A B, ← ne A (new Arith.ofInt 2 2))) = .ok ([[1, 2], [3, 4]], true, true) := by
  decide +kernel

/-- C74: no rows, or a row shorter than the first, is undefined. -/
theorem C74_ragged {α : Type} (ar : Arith α) :
    ofRows ar [] = .ub ∧
    ∀ (a : List α) (l : List (List α)), (∃ r ∈ l, r.length < a.length) → ofRows ar (a :: l) = .ub := by
  refine ⟨rfl, fun a l ⟨r, hr, h⟩ => ?_⟩
  unfold ofRows
  dsimp only
  rw [if_neg]
  intro hall
  have := hall r (by simp [hr])
  omega

example : ∃ r ∈ [[1, 2, 3], [(4 : Int)]], r.length < [(1 : Int), 2].length := ⟨[4], by simp, by decide⟩

end Matrix
