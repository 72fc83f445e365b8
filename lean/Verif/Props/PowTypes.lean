import Verif.Proof.PowTypes
import Mathlib.Algebra.Field.Rat

/-! # Property C151: `genericBinaryPow` for the number types of the library

`PowTypes.fraction`, `PowTypes.double` and `PowTypes.matrix` are `genericBinaryPow` for `Fraction`, `double` and `Matrix`.
`Fraction.Spec.Canonical f`: what a `Fraction` object holds (two `int`s, positive denominator, lowest terms).
`Rand.Spec.IsDouble q`: the rational number `q` is a finite double. -/

namespace PowTypes
open Cpp

/-! ### Fractions -/

/-- C151 as stated – a power that is a `Fraction` is returned – is false: 3^17 is an `int`, but the loop squares once more. -/
theorem C151_fraction_refuted : ∃ (f : Fraction.Frac) (n : Nat), Fraction.Spec.Canonical f ∧
    Fraction.Spec.Canonical ⟨f.num ^ n, f.den ^ n⟩ ∧ fraction f n = .ub := by
  have h : ∀ v : Int, IsInt v → Fraction.Spec.Canonical ⟨v, 1⟩ := Fraction.ofInt_canonical
  refine ⟨⟨3, 1⟩, 17, h 3 (by decide), h (3 ^ 17) (by decide), ?_⟩
  rw [fraction_spec (h 3 (by decide)) (by decide), if_neg (by decide)]

/-- C151, what holds for fractions: the power 0 is 1/1, the power 1 the fraction itself, a negative exponent ends the program;
for `n ≥ 2` let `m` be twice the greatest power of two that is at most `n - 1`: if numerator^m and denominator^m do not exceed
`INT_MAX`, the result is exactly the `n`-th power, in lowest terms; otherwise the behaviour is undefined. -/
theorem C151_fraction_partial (f : Fraction.Frac) (hf : Fraction.Spec.Canonical f) :
    fraction f 0 = .ok ⟨1, 1⟩ ∧ fraction f 1 = .ok f ∧ (∀ n : Int, n < 0 → fraction f n = .exit) ∧
    ∀ n : Nat, 2 ≤ n → ∀ m : Nat, (∃ k, m = 2 * 2 ^ k ∧ 2 ^ k ≤ n - 1 ∧ n - 1 < 2 * 2 ^ k) →
      (f.num ^ m ≤ INT_MAX ∧ f.den ^ m ≤ INT_MAX → fraction f n = .ok ⟨f.num ^ n, f.den ^ n⟩ ∧
        Fraction.Spec.Canonical ⟨f.num ^ n, f.den ^ n⟩ ∧ Fraction.Spec.val ⟨f.num ^ n, f.den ^ n⟩ = Fraction.Spec.val f ^ n) ∧
      (¬ (f.num ^ m ≤ INT_MAX ∧ f.den ^ m ≤ INT_MAX) → fraction f n = .ub) := by
  have h0 : Fraction.ofInt 1 = .ok ⟨1, 1⟩ := by decide +kernel
  refine ⟨h0, ?_, fun n hn => ?_, ?_⟩
  · unfold fraction MathFns.genericBinaryPow
    rw [if_neg (by decide), if_neg (by decide), if_pos rfl]
  · unfold fraction MathFns.genericBinaryPow
    rw [if_neg (by omega), if_neg (by omega), if_neg (by omega), if_pos hn]
  · rintro n hn m ⟨k, rfl, h1, h2⟩
    have hk : Nat.log2 (n - 1) = k := by
      rw [Nat.log2_eq_iff (by omega)]
      rw [pow_succ']; exact ⟨h1, h2⟩
    have h := fraction_spec hf hn
    rw [hk, pow_succ'] at h
    refine ⟨fun hc => ?_, fun hc => ?_⟩
    · rw [if_pos hc] at h
      have hd : 2 ∣ 2 * 2 ^ k := ⟨_, rfl⟩
      refine ⟨h, ⟨Fraction.small_isInt (small_pow hc.1 hd (by positivity) (by omega) (by omega)),
        Fraction.small_isInt (small_pow hc.2 hd (by positivity) (by omega) (by omega)), pow_pos hf.den_pos n,
        gcd_pow hf.coprime n⟩, ?_⟩
      unfold Fraction.Spec.val
      push_cast
      rw [div_pow]
    · rw [if_neg hc] at h; exact h

example : Fraction.Spec.Canonical ⟨-7, 10⟩ ∧ (∃ k, 8 = 2 * 2 ^ k ∧ 2 ^ k ≤ 6 - 1 ∧ 6 - 1 < 2 * 2 ^ k) ∧
    (-7 : Int) ^ 8 ≤ INT_MAX ∧ (10 : Int) ^ 8 ≤ INT_MAX ∧ fraction ⟨-7, 10⟩ 6 = .ok ⟨117649, 1000000⟩ :=
  ⟨⟨by decide, by decide, by decide, by decide⟩, ⟨2, by decide⟩, by decide, by decide, by decide +kernel⟩

/-! ### Doubles -/

/-- C151 for doubles: unless the power is very large or very small, the result is finite and differs from the exact power by at most
`(n - 1) / 2^52` of it. -/
theorem C151_double (q : ℚ) (n : Nat) (h1 : 1 ≤ n) (hn : n ≤ 2 ^ 51) (lo : 2 ^ (-1021 : Int) ≤ |q| ^ n)
    (hi : |q| ^ n ≤ 2 ^ 1022) : ∃ r : ℚ, double (.fin q) n = .ok (.fin r) ∧ |r - q ^ n| ≤ ((n : ℚ) - 1) / 2 ^ 52 * |q ^ n| := by
  obtain ⟨r, e, h⟩ := double_of_step (fun i a => Near (i - 1) (q ^ i) a) q n h1
    (fun i j a b hi' hj' hij ha hb => ⟨_, pow_step hn lo hi hi' hj' hij ha hb⟩) (by simp [Near])
  refine ⟨r, e, le_trans h (mul_le_mul_of_nonneg_right ?_ (abs_nonneg _))⟩
  have h3 : ((n - 1 : Nat) : ℚ) = (n : ℚ) - 1 := by push_cast [h1]; ring
  have h4 : ((n - 1 : Nat) : ℚ) * u ≤ 1 / 2 := by
    have h5 : ((n - 1 : Nat) : ℚ) ≤ 2 ^ 51 := by exact_mod_cast (show n - 1 ≤ 2 ^ 51 by omega)
    calc _ ≤ (2 : ℚ) ^ 51 * u := mul_le_mul_of_nonneg_right h5 u_pos.le
      _ ≤ 1 / 2 := by unfold u; norm_num
  have h6 := PowTypes.hi_le _ h4
  rw [h3] at h6
  have h7 : 2 * (((n : ℚ) - 1) * u) = ((n : ℚ) - 1) / 2 ^ 52 := by unfold u; ring
  linarith

example : Rand.Spec.IsDouble (-3 / 2) ∧ (1 : Nat) ≤ 20 ∧ 20 ≤ 2 ^ 51 ∧ 2 ^ (-1021 : Int) ≤ |(-3 / 2 : ℚ)| ^ 20 ∧
    |(-3 / 2 : ℚ)| ^ 20 ≤ 2 ^ 1022 := by
  refine ⟨⟨-3, -1, by decide, by decide, by decide, by norm_num⟩, by decide, by decide, ?_, ?_⟩
  · refine le_trans (zpow_le_one_of_nonpos₀ (by norm_num) (by norm_num)) ?_
    norm_num [abs_of_neg]
  · refine le_trans ?_ (pow_le_pow_right₀ (by norm_num : (1 : ℚ) ≤ 2) (by norm_num : 20 ≤ 1022))
    norm_num [abs_of_neg]

/-- C151 for doubles that are whole numbers: a power of at most 2^53 in absolute value is exact. -/
theorem C151_double_whole (z : Int) (n : Nat) (h1 : 1 ≤ n) (h : |z| ^ n ≤ 2 ^ 53) :
    double (.fin z) n = .ok (.fin ((z ^ n : Int) : ℚ)) := by
  obtain ⟨r, e, h⟩ := double_of_step (fun i a => a = ((z ^ i : Int) : ℚ)) z n h1
    (fun i j a b hi' hj' hij ha hb => by
      refine ⟨((z ^ (i + j) : Int) : ℚ), ?_, rfl⟩
      subst ha hb
      have hb : |(z ^ (i + j) : Int)| ≤ 2 ^ 53 := by
        rw [abs_pow]
        rcases eq_or_ne z 0 with rfl | hz
        · rw [abs_zero, zero_pow (by omega)]; norm_num
        · exact (pow_le_pow_right₀ (Int.one_le_abs hz) hij).trans h
      have hq : |((z ^ (i + j) : Int) : ℚ)| ≤ 2 ^ 53 := by exact_mod_cast hb
      rw [Stats.mul_dbl, ← Int.cast_mul, ← pow_add, Stats.round_small (hq.trans (by norm_num))]
      congr 1
      have := fl_exact hb (k := 0) (by norm_num)
      rw [zpow_zero, mul_one] at this
      exact this) (by simp)
  rw [e, h]

example : |(-10 : Int)| ^ 15 ≤ 2 ^ 53 ∧ double (.fin (-10)) 15 = .ok (.fin (-1000000000000000)) :=
  ⟨by decide, by have := C151_double_whole (-10) 15 (by decide) (by decide); norm_num at this ⊢; exact this⟩

/-- C151 for doubles: the power 0 is one (also of NaN), the power 1 the number itself, a negative exponent ends the program, and
any other power of NaN is NaN. -/
theorem C151_double_special (x : Dbl) : double x 0 = .ok (.fin 1) ∧ double x 1 = .ok x ∧ (∀ n : Int, n < 0 → double x n = .exit) ∧
    ∀ n : Int, 1 ≤ n → double .nan n = .ok .nan := by
  refine ⟨rfl, rfl, fun n hn => ?_, fun n hn => ?_⟩
  · unfold double MathFns.genericBinaryPow
    rw [if_neg (by omega), if_neg (by omega), if_pos hn]
  · have hl : ∀ e : Nat, MathFns.genericLoop (fun a b : Dbl => .ok (a * b)) .nan .nan e = .ok .nan := by
      intro e
      induction e using Nat.strongRecOn with
      | _ e ih =>
        by_cases he : e = 0
        · subst he; exact MathFns.genericLoop_zero _ _ _
        · rw [MathFns.genericLoop_pos _ _ _ _ he]
          have hm : (Dbl.nan * Dbl.nan : Dbl) = .nan := rfl
          split <;> simp only [hm, Out.ok_bind] <;> exact ih _ (by omega)
    unfold double MathFns.genericBinaryPow
    rw [if_neg (by omega)]
    split
    · rfl
    · rw [if_neg (by omega)]; exact hl _

/-! ### Matrices -/

section
open Matrix Matrix.Spec

/-- C151 as stated is false for matrices: after every program, the second and every higher power of a square matrix is undefined
(`*=` destroys the entries twice). -/
theorem C151_matrix_refuted {α : Type} [Field α] [DecidableEq α] (prog : List (Stmt α)) (hp : ∀ st ∈ prog, st.NotMulTo)
    (env : List (Value α)) (hs : Spec.run prog = some env) (x : Nat) (A : Value α) (hx : env[x]? = some A) (n : Int) (hn : 2 ≤ n) :
    ∃ vars h o, Mem.run (Arith.exact α) prog = .ok (vars, h) ∧ vars[x]? = some o ∧
      matrix (Arith.exact α) h o n = if A.rows = A.cols then .ub else .exit := by
  obtain ⟨h, S, L, e, rfl, I, -⟩ := Mem.run_ok prog hp Mem.inv_empty hs
  obtain ⟨s, h1, rfl, h2⟩ := Mem.slot_of hx
  rw [List.map_nil] at e
  exact ⟨_, h, s.o, e, by rw [List.getElem?_map, h1]; rfl, matrix_ub (I.own s (List.mem_of_getElem? h1)) I.wf hn⟩

/-- C151 for matrices: the power 0 is not the identity matrix, but a 1×1 matrix that holds zero. -/
theorem C151_matrix_zero_refuted {α : Type} [Field α] [DecidableEq α] (prog : List (Stmt α)) (hp : ∀ st ∈ prog, st.NotMulTo)
    (env : List (Value α)) (hs : Spec.run prog = some env) (x : Nat) (A : Value α) (hx : env[x]? = some A) :
    ∃ vars h o r h', Mem.run (Arith.exact α) prog = .ok (vars, h) ∧ vars[x]? = some o ∧
      matrix (Arith.exact α) h o 0 = .ok (r, h') ∧ r.row = 1 ∧ r.col = 1 ∧ Mem.get h' r 0 0 = .ok 0 := by
  obtain ⟨h, S, L, e, rfl, I, -⟩ := Mem.run_ok prog hp Mem.inv_empty hs
  obtain ⟨s, h1, rfl, h2⟩ := Mem.slot_of hx
  rw [List.map_nil] at e
  obtain ⟨r, pr, h3, e3, P3⟩ := matrix_zero (ar := Arith.exact α) (I.own s (List.mem_of_getElem? h1)) I.wf
  exact ⟨_, h, s.o, r, h3, e, by rw [List.getElem?_map, h1]; rfl, e3, P3.1.row, P3.1.col, P3.get Nat.one_pos Nat.one_pos⟩

/-- C151, what holds for matrices: the power 1 is a new matrix with the same entries, which changes no other memory (destroying it
leaves the memory as it was), and a negative exponent ends the program. -/
theorem C151_matrix_partial {α : Type} [Field α] [DecidableEq α] (prog : List (Stmt α)) (hp : ∀ st ∈ prog, st.NotMulTo)
    (env : List (Value α)) (hs : Spec.run prog = some env) (x : Nat) (A : Value α) (hx : env[x]? = some A) :
    ∃ vars h o r h' h'', Mem.run (Arith.exact α) prog = .ok (vars, h) ∧ vars[x]? = some o ∧
      matrix (Arith.exact α) h o 1 = .ok (r, h') ∧ r.row = A.rows ∧ r.col = A.cols ∧
      (∀ i, i < A.rows → ∀ j, j < A.cols → Mem.get h' r i j = .ok (A.entry i j)) ∧
      (∀ a, (h.cell a).isSome → h'.cell a = h.cell a) ∧ Mem.clear h' r = .ok h'' ∧ (∀ a, h''.cell a = h.cell a) ∧
      ∀ n : Int, n < 0 → matrix (Arith.exact α) h o n = .exit := by
  obtain ⟨h, S, L, e, rfl, I, -⟩ := Mem.run_ok prog hp Mem.inv_empty hs
  obtain ⟨s, h1, rfl, h2⟩ := Mem.slot_of hx
  rw [List.map_nil] at e
  have P := I.own s (List.mem_of_getElem? h1)
  obtain ⟨r, pr, h3, h4, e3, P3, e4, c3, c4⟩ := matrix_one (ar := Arith.exact α) P I.wf
  refine ⟨_, h, s.o, r, h3, h4, e, by rw [List.getElem?_map, h1]; rfl, e3, P3.1.row, P3.1.col,
    fun i hi j hj => P3.get hi hj, fun a ha => c3 a ?_, e4, c4, fun n hn => matrix_neg P I.wf hn⟩
  by_contra hc
  rw [I.wf a (by omega)] at ha
  cases ha

example : ∃ env A, Spec.run ([.declareRows [[1, 1], [1, 0]]] : List (Stmt ℚ)) = some env ∧ env[0]? = some A ∧ A.rows = A.cols :=
  ⟨_, _, rfl, rfl, rfl⟩

end
end PowTypes
