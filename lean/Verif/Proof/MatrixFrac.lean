import Verif.Spec.MatrixFrac
import Verif.Proof.MatrixDouble
import Verif.Proof.MatrixReduce
import Verif.Props.Fraction

/-! # Helper lemmas for matrices of fractions and of integers -/

namespace Matrix
open Cpp Spec Fraction Fraction.Spec MathFns

theorem val_frac (q : ℚ) : val (frac q) = q := by
  unfold val frac
  exact_mod_cast Rat.num_div_den q

theorem canonical_frac {q : ℚ} (h : Short q) : Canonical (frac q) := by
  obtain ⟨h1, h2⟩ := h
  have := q.den_pos
  refine ⟨?_, ?_, ?_, ?_⟩
  · unfold IsInt INT_MIN INT_MAX frac; dsimp only; omega
  · unfold IsInt INT_MIN INT_MAX frac; dsimp only; omega
  · unfold frac; dsimp only; omega
  · unfold frac; dsimp only; rw [Int.gcd]; simpa using q.reduced

theorem frac_of {c : Frac} (h : Canonical c) : frac (val c) = c := by
  have h0 : (c.den.toNat : Int) = c.den := Int.toNat_of_nonneg h.den_pos.le
  refine val_inj ⟨?_, ?_, ?_, ?_⟩ h (val_frac _) <;> unfold frac val <;> dsimp only
  · have : ((c.num : ℚ) / (c.den : ℚ)).num = c.num := Rat.num_div_eq_of_coprime h.den_pos (by
      have := h.coprime; rwa [Int.gcd] at this)
    rw [this]; exact h.num_int
  · have : (((c.num : ℚ) / (c.den : ℚ)).den : Int) = c.den := Rat.den_div_eq_of_coprime h.den_pos (by
      have := h.coprime; rwa [Int.gcd] at this)
    rw [this]; exact h.den_int
  · have := ((c.num : ℚ) / (c.den : ℚ)).den_pos
    omega
  · rw [Int.gcd]; simpa using ((c.num : ℚ) / (c.den : ℚ)).reduced

theorem frac_eq {c : Frac} {q : ℚ} (h : Canonical c) (e : val c = q) : c = frac q := by rw [← e, frac_of h]

theorem short_mul {a b : Int} (ha : a.natAbs < 32768) (hb : b.natAbs < 32768) : (a * b).natAbs ≤ 1073676289 := by
  rw [Int.natAbs_mul]
  calc a.natAbs * b.natAbs ≤ 32767 * 32767 := Nat.mul_le_mul (by omega) (by omega)
    _ = 1073676289 := by norm_num

theorem frac_ops {x y : ℚ} (hx : Short x) (hy : Short y) :
    Fraction.add (frac x) (frac y) = .ok (frac (x + y)) ∧ Fraction.sub (frac x) (frac y) = .ok (frac (x - y)) ∧
    Fraction.mul (frac x) (frac y) = .ok (frac (x * y)) := by
  have cx := canonical_frac hx
  have cy := canonical_frac hy
  have m1 : ((frac x).num * (frac y).den).natAbs ≤ 1073676289 := short_mul hx.1 (by simpa [frac] using hy.2)
  have m2 : ((frac x).den * (frac y).num).natAbs ≤ 1073676289 := short_mul (by simpa [frac] using hx.2) hy.1
  have m3 : ((frac x).den * (frac y).den).natAbs ≤ 1073676289 :=
    short_mul (by simpa [frac] using hx.2) (by simpa [frac] using hy.2)
  have m4 : ((frac x).num * (frac y).num).natAbs ≤ 1073676289 := short_mul hx.1 hy.1
  have sm : ∀ a : Int, a.natAbs ≤ 2147483647 → Small a := fun a h => isInt_small_iff.2 h
  obtain ⟨d1, d2, d3, -⟩ := C15_defined _ _ cx cy (sm _ (by omega)) (sm _ (by omega)) (sm _ (by omega))
  obtain ⟨c1, e1⟩ := d1 (sm _ (by omega))
  obtain ⟨c2, e2⟩ := d2 (sm _ (by omega))
  obtain ⟨c3, e3⟩ := d3 (sm _ (by omega))
  have v1 := add_val cx cy e1
  have v2 := sub_val cx cy e2
  have v3 := mul_val e3
  rw [val_frac, val_frac] at v1 v2 v3
  rw [e1, e2, e3, frac_eq v1.1 v1.2, frac_eq v2.1 v2.2, frac_eq v3.1 v3.2]
  exact ⟨rfl, rfl, rfl⟩

theorem quot_small {a b : Int} (ha : a.natAbs < 32768) (hb : b ≠ 0) : ∃ c, quot a b = .ok c ∧ c.natAbs < 32768 := by
  unfold quot
  rw [if_neg hb, if_neg (by unfold INT_MIN; omega)]
  refine ⟨_, rfl, ?_⟩
  rw [Int.natAbs_tdiv]
  exact lt_of_le_of_lt (Nat.div_le_self _ _) ha

theorem frac_div {x y : ℚ} (hx : Short x) (hy : Short y) (h0 : y ≠ 0) (hn : y.num ∣ x.num) (hd : y.den ∣ x.den) :
    Fraction.divAssign (frac x) (frac y) = .ok (frac (x / y)) := by
  have cx := canonical_frac hx
  have cy := canonical_frac hy
  have hyn : y.num ≠ 0 := Rat.num_ne_zero.2 h0
  have hyd : (y.den : Int) ≠ 0 := by have := y.den_pos; omega
  have hex : ∃ c, Fraction.divAssign (frac x) (frac y) = .ok c := by
    unfold Fraction.divAssign
    obtain ⟨n, e1, l1⟩ := quot_small (a := (frac x).num) (b := (frac y).num) hx.1 hyn
    obtain ⟨d, e2, l2⟩ := quot_small (a := (frac x).den) (b := (frac y).den) (by simpa [frac] using hx.2) hyd
    have hdd : (frac y).den * d = (frac x).den := quot_ok e2 (show (y.den : Int) ∣ (x.den : Int) by exact_mod_cast hd)
    have hd0 : d ≠ 0 := by
      rintro rfl
      have := cx.den_pos
      omega
    obtain ⟨t, e3⟩ := C14_ctor_defined n d (isInt_small_iff.2 (by omega)) (isInt_small_iff.2 (by omega)) hd0
    rw [e1, Out.ok_bind, e2, Out.ok_bind, e3, Out.ok_bind]
    exact ⟨_, rfl⟩
  obtain ⟨c, e⟩ := hex
  have v := (C17_compound_partial (frac x) (frac y)).2.2.2 c cx cy hn
    (show (y.den : Int) ∣ (x.den : Int) by exact_mod_cast hd) e
  have hc := C14_ops_canonical (frac x) (frac y) c cx cy (by simp [e])
  rw [val_frac, val_frac] at v
  rw [e, frac_eq hc v]

theorem ifShort_ok {x y z w : ℚ} (h : ifShort x y z = .ok w) : w = z ∧ Short x ∧ Short y := by
  unfold ifShort at h
  split at h
  · rename_i c; cases h; exact ⟨rfl, c.1, c.2.1⟩
  · cases h

theorem frac_zero : frac 0 = ⟨0, 1⟩ := by decide
theorem frac_one : frac 1 = ⟨1, 1⟩ := by decide

theorem hom_frac : Hom frac shortFractions Arith.fracReduce where
  zero := frac_zero
  one := frac_one
  iff x := by
    constructor
    · intro h
      have h' : frac x = frac 0 := by rw [frac_zero]; exact h
      have := congrArg val h'
      rwa [val_frac, val_frac] at this
    · rintro rfl; exact frac_zero
  add x y z h := by
    obtain ⟨rfl, h1, h2⟩ := ifShort_ok h
    show Fraction.addAssign _ _ = _
    rw [addAssign_eq]; exact (frac_ops h1 h2).1
  sub x y z h := by
    obtain ⟨rfl, h1, h2⟩ := ifShort_ok h
    show Fraction.subAssign _ _ = _
    rw [subAssign_eq]; exact (frac_ops h1 h2).2.1
  mul x y z h := by
    obtain ⟨rfl, h1, h2⟩ := ifShort_ok h
    exact (frac_ops h1 h2).2.2
  div x y z h := by
    simp only [shortFractions] at h
    split at h
    · rename_i c
      obtain ⟨rfl, h1, h2⟩ := ifShort_ok h
      exact frac_div h1 h2 c.1 c.2.1 c.2.2
    · cases h

theorem hom_short : Hom id shortFractions (Arith.exact ℚ) where
  zero := rfl
  one := rfl
  iff _ := Iff.rfl
  add x y z h := by rw [(ifShort_ok h).1]; rfl
  sub x y z h := by rw [(ifShort_ok h).1]; rfl
  mul x y z h := by rw [(ifShort_ok h).1]; rfl
  div x y z h := by
    simp only [shortFractions] at h
    simp only [Arith.exact, id]
    split at h
    · rename_i c
      rw [if_neg c.1, (ifShort_ok h).1]
    · cases h

theorem hom_ints : Hom id exactInts Arith.ofInt where
  zero := rfl
  one := rfl
  iff _ := Iff.rfl
  add x y z h := by
    simp only [exactInts] at h
    split at h
    · rename_i c; cases h; exact int_ok c
    · cases h
  sub x y z h := by
    simp only [exactInts] at h
    split at h
    · rename_i c; cases h; exact int_ok c
    · cases h
  mul x y z h := by
    simp only [exactInts] at h
    split at h
    · rename_i c; cases h; exact int_ok c
    · cases h
  div x y z h := by
    simp only [exactInts] at h
    split at h
    · rename_i c
      cases h
      have : x.tdiv y = x / y := Int.tdiv_eq_ediv_of_dvd c.2.1
      simp only [Arith.ofInt, id]
      rw [if_neg c.1, this]
      exact int_ok c.2.2
    · cases h

theorem hom_rat : Hom (fun x : Int => (x : ℚ)) exactInts (Arith.exact ℚ) where
  zero := by simp [exactInts, Arith.exact]
  one := by simp [exactInts, Arith.exact]
  iff x := by simp [exactInts, Arith.exact]
  add x y z h := by
    simp only [exactInts] at h
    split at h
    · cases h; simp [Arith.exact]
    · cases h
  sub x y z h := by
    simp only [exactInts] at h
    split at h
    · cases h; simp [Arith.exact]
    · cases h
  mul x y z h := by
    simp only [exactInts] at h
    split at h
    · cases h; simp [Arith.exact]
    · cases h
  div x y z h := by
    simp only [exactInts] at h
    split at h
    · rename_i c
      cases h
      simp only [Arith.exact]
      rw [if_neg (by exact_mod_cast c.1), Int.cast_div c.2.1 (by exact_mod_cast c.1)]
    · cases h

/-- what exact elimination returns has the solutions of the matrix -/
theorem reduce_solves {A R : Mat ℚ} {n m : Nat} {f : Nat → Nat → ℚ} (hA : Holds A n m f) (hm : 0 < m)
    (h : reduce (Arith.exact ℚ) A = .ok R) : ∃ g, Holds R n m g ∧ Echelon n m g ∧ ∀ x, Solves n m g x ↔ Solves n m f x := by
  unfold reduce at h
  rw [hA.row] at h
  obtain ⟨R', g, e, hR, hE, hS⟩ := reduceLoop_spec n A 0 0 f (fun _ => 0) hA (by omega) hm
    ⟨fun _ h => absurd h (by omega), fun _ _ _ h => absurd h (by omega), fun _ h => absurd h (by omega),
      fun _ h => absurd h (by omega), fun _ _ _ _ h => absurd h (by omega)⟩
  rw [h] at e
  cases e
  exact ⟨g, hR, hE, hS⟩

/-- adding to a cell made by `memset` ends the program -/
theorem addAssign_raw (x : Frac) (z : Frac) : Fraction.addAssign ⟨0, 0⟩ x ≠ .ok z := by
  intro h
  rw [addAssign_eq] at h
  unfold Fraction.add at h
  simp only [zero_mul] at h
  rw [int_ok (show IsInt 0 by decide), Out.ok_bind, Out.ok_bind, int_ok (show IsInt (0 + 0) by decide), Out.ok_bind,
    Out.ok_bind, C14_ctor_zero] at h
  cases h

/-- a loop whose first round does not return does not return -/
theorem foldlM_first {σ : Type} {f : σ → Nat → Out σ} {n : Nat} {s : σ} (hn : 0 < n) (h : ∀ t, f s 0 ≠ .ok t) (t : σ) :
    (List.range n).foldlM f s ≠ .ok t := by
  obtain ⟨k, rfl⟩ : ∃ k, n = k + 1 := ⟨n - 1, by omega⟩
  rw [List.range_succ_eq_map, List.foldlM_cons]
  intro e
  obtain ⟨u, e, -⟩ := Out.bind_eq_ok.1 e
  exact h u e

theorem product_raw (A B : Mat Frac) (hr : 0 < A.row) (hm : 0 < A.col) (hc : 0 < B.col) (R : Mat Frac) :
    product Arith.fracAssign A B ≠ .ok R := by
  unfold product
  refine foldlM_first hr (fun t => foldlM_first hc (fun t => foldlM_first hm (fun t e => ?_) t) t) R
  unfold timesStep at e
  obtain ⟨x, -, e⟩ := Out.bind_eq_ok.1 e
  obtain ⟨y, -, e⟩ := Out.bind_eq_ok.1 e
  obtain ⟨p, -, e⟩ := Out.bind_eq_ok.1 e
  obtain ⟨r, e1, e⟩ := Out.bind_eq_ok.1 e
  obtain ⟨z, e2, -⟩ := Out.bind_eq_ok.1 e
  have : r = ⟨0, 0⟩ := by
    unfold Mat.get at e1
    split at e1
    · cases e1; rfl
    · cases e1
  subst this
  exact addAssign_raw p z e2

end Matrix
