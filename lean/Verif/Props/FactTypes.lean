import Verif.Proof.FactTypes
import Mathlib.Data.Finset.Powerset

/-! # C150: `factorial`, `permutation` and `binomial` for every integer type -/

namespace FactTypes
open Cpp GcdTypes Spec

/-- **C150.**  For every integer type, whenever `factorial(n)` returns, it returns `n!`. -/
def C150 : Prop := ∀ (t : ITy) (n fuel : Nat) (v : Int), t.In n → factorial t fuel n = .ok v → v = n.factorial

/-- **C150** (refuted: wrong numbers).  `factorial(13u)` and `factorial` of the `short` 8 and the `signed char` 6 return other numbers. -/
theorem C150_refuted : ¬ C150 ∧ factorial .u32 14 13 = .ok 1932053504 ∧ factorial .i16 9 8 = .ok (-25216) ∧
    factorial .i8 7 6 = .ok (-48) := by
  refine ⟨fun h => ?_, by decide +kernel, by decide +kernel, by decide +kernel⟩
  have h1 : ITy.u32.In ((13 : Nat) : Int) := by decide
  have h2 : factorial .u32 14 ((13 : Nat) : Int) = .ok 1932053504 := by decide +kernel
  have := h .u32 13 14 1932053504 h1 h2
  revert this; decide +kernel

/-- **C150** (refuted: no result).  For every type but `int` and the signed 64-bit type, `factorial` of the greatest value never ends:
the loop counter wraps around before it exceeds `n`. -/
theorem C150_endless_refuted (t : ITy) (ht : Wraps t) (fuel : Nat) : factorial t fuel t.max = .diverge := by
  unfold factorial
  rw [if_neg (by have := (in_zero t).2; omega)]
  have h2 : t.In 2 := by cases t <;> decide
  have h1 : t.conv ((Nat.factorial 1 : Nat) : Int) = 1 := by cases t <;> decide
  exact facGo_endless ht fuel 2 1 ⟨h2, .inr ⟨1, rfl, h1.symm, by decide⟩⟩

example : Wraps .i8 ∧ Wraps .u64 ∧ ITy.i8.max = 127 ∧ ITy.u8.max = 255 := by decide

/-- **C150** (partial).  For every type, `factorial(n)` is `n!` if that is a value of the type. -/
theorem C150_factorial_partial (t : ITy) (n fuel : Nat) (h : t.In n.factorial) (hf : n < fuel) :
    factorial t fuel n = .ok n.factorial :=
  (factorial_exact n fuel (by have := Nat.self_le_factorial n; have := h.2; omega) hf).1 h.2

example : ITy.u8.In (Nat.factorial 5) ∧ ITy.i16.In (Nat.factorial 7) ∧ ITy.u64.In (Nat.factorial 20) := by decide +kernel

/-- **C150** (partial).  If `n!` is not a value of `int` or the signed 64-bit type, the call is undefined. -/
theorem C150_factorial_signed_partial (t : ITy) (n fuel : Nat) (ht : t = .i32 ∨ t = .i64) (hn : t.In n) (h : ¬ t.In n.factorial)
    (hf : n < fuel) : factorial t fuel n = .ub :=
  (factorial_exact n fuel hn.2 hf).2 (by rcases ht with rfl | rfl <;> decide) (fun h' =>
    h ⟨by have := (in_zero t).1; omega, h'⟩)

example : ITy.i32.In 13 ∧ ¬ ITy.i32.In (Nat.factorial 13) ∧ ¬ ITy.i64.In (Nat.factorial 21) := by decide +kernel

/-- **C150** (partial).  In the other types, `factorial` of anything but the greatest value returns the residue of `n!`. -/
theorem C150_factorial_wrap_partial (t : ITy) (ht : Wraps t) (n fuel : Nat) (hn : t.In n) (h : (n : Int) ≠ t.max) (hf : n < fuel) :
    ∃ v, factorial t fuel n = .ok v ∧ Reduced t v n.factorial :=
  ⟨_, factorial_wrap ht n fuel (by have := hn.2; omega) hf, conv_in t _, conv_dvd t _⟩

example : Wraps .u16 ∧ ITy.u16.In 65534 ∧ ((65534 : Nat) : Int) ≠ ITy.u16.max ∧ Reduced .u16 35200 (Nat.factorial 9) := by
  refine ⟨by decide, by decide, by decide, ?_, ?_⟩ <;> decide +kernel

/-! ### permutations -/

/-- **C150** (partial).  For every type and `1 ≤ r ≤ n`, `permutation(n, r)` is the number of arrangements if that is a value of the
type. -/
theorem C150_permutation_partial (t : ITy) (n r fuel : Nat) (h0 : 0 < r) (hr : r ≤ n) (h : t.In (n.descFactorial r)) (hf : r < fuel) :
    permutation t fuel n r = .ok (n.descFactorial r) := by
  have hle : n ≤ n.descFactorial r := by
    obtain ⟨m, rfl⟩ : ∃ m, n = m + 1 := ⟨n - 1, by omega⟩
    obtain ⟨q, rfl⟩ : ∃ q, r = q + 1 := ⟨r - 1, by omega⟩
    rw [Nat.succ_descFactorial_succ]
    exact Nat.le_mul_of_pos_right _ (Nat.pos_of_ne_zero (by rw [Ne, Nat.descFactorial_eq_zero_iff_lt]; omega))
  have hm := h.2
  refine permutation_phi (fun k => (k : Int)) n r fuel h0 hr (by omega) hf rfl (fun a b hab _ => ?_)
  rw [← Nat.cast_mul]
  exact store_in ⟨by have := (in_zero t).1; omega, by omega⟩

example : 0 < 3 ∧ 3 ≤ 6 ∧ ITy.i8.In (Nat.descFactorial 6 3) ∧ ITy.u16.In (Nat.descFactorial 40 3) := by decide

/-- **C150** (partial).  In all types but `int`, the signed 64-bit type and `unsigned short`, the result is always the residue of
the number of arrangements. -/
theorem C150_permutation_wrap_partial (t : ITy) (ht : Wraps t) (h16 : t ≠ .u16) (n r fuel : Nat) (hn : t.In n) (h0 : 0 < r) (hr : r ≤ n)
    (hf : r < fuel) : ∃ v, permutation t fuel n r = .ok v ∧ Reduced t v (n.descFactorial r) := by
  refine ⟨_, permutation_phi (fun k => t.conv (k : Int)) n r fuel h0 hr hn.2 hf (conv_of_in hn) (fun a b _ hb => ?_), conv_in t _, conv_dvd t _⟩
  have hc : t = .u32 ∨ t = .u64 ∨ t = .i8 ∨ t = .u8 ∨ t = .i16 := by
    revert ht h16; cases t <;> decide
  rw [store_wrap ht ?_, conv_mul, ← Nat.cast_mul]
  rcases hc with h | h | h
  · exact .inr (.inl h)
  · exact .inr (.inr h)
  · exact .inl (small_product h (conv_in t _) (by omega) hb)

/-- **C150** (partial).  In `int` and the signed 64-bit type the call is undefined if the number of arrangements is not representable. -/
theorem C150_permutation_signed_partial (t : ITy) (ht : t = .i32 ∨ t = .i64) (n r fuel : Nat) (hn : t.In n) (h0 : 0 < r) (hr : r ≤ n)
    (h : ¬ t.In (n.descFactorial r)) (hf : r < fuel) : permutation t fuel n r = .ub := by
  have h0' := (in_zero t).1
  have hm := hn.2
  unfold permutation
  obtain ⟨m, rfl⟩ : ∃ m, n = m + 1 := ⟨n - 1, by omega⟩
  rw [if_neg (by omega), store_in (x := ((m + 1 : Nat) : Int) - 1) ⟨by omega, by omega⟩, Out.ok_bind,
    show ((m + 1 : Nat) : Int) - 1 = (m : Nat) by omega]
  have e : (m + 1).descFactorial r = (m + 1) * m.descFactorial (r - 1) := by
    obtain ⟨q, rfl⟩ : ∃ q, r = q + 1 := ⟨r - 1, by omega⟩
    rw [Nat.succ_descFactorial_succ]; simp
  rw [e] at h
  exact permGo_ub (by rcases ht with rfl | rfl <;> rfl) (by rcases ht with rfl | rfl <;> rfl) r fuel (m + 1) m (by omega) hf
    (by omega) hm (fun h' => h ⟨by omega, h'⟩)

example : ITy.i32.In ((50000 : Nat) : Int) ∧ ¬ ITy.i32.In (Nat.descFactorial 50000 2) ∧ Wraps .i8 ∧ ITy.i8.In ((100 : Nat) : Int) ∧
    permutation .i8 4 100 3 = .ok (-40) := by
  decide +kernel

example : ITy.u32.In ((65537 : Nat) : Int) ∧ 0 < 2 ∧ 2 ≤ 65537 ∧ permutation .u32 3 65537 2 = .ok 65536 := by decide +kernel

/-- **C150** (refuted for permutations).  `permutation(n, 2)` of `unsigned short` values is undefined for every `n` from 46342 on,
because the product is computed in `int`; no unsigned type guards against that. -/
theorem C150_permutation_refuted (n fuel : Nat) (h1 : 46342 ≤ n) (hn : ITy.u16.In n) : permutation .u16 (fuel + 1) n 2 = .ub := by
  have h2 : (n : Int) ≤ 65535 := hn.2
  unfold permutation
  rw [if_neg (by omega), store_in (x := (n : Int) - 1) ⟨by have : ITy.u16.min = 0 := rfl; omega, by have : ITy.u16.max = 65535 := rfl; omega⟩,
    Out.ok_bind]
  unfold permGo
  rw [if_pos (by decide)]
  have hb : ¬ ITy.i32.In ((n : Int) * ((n : Int) - 1)) := by
    intro h
    have h3 : (n : Int) * ((n : Int) - 1) ≤ 2147483647 := h.2
    have h4 : (46342 : Int) ≤ n := by omega
    nlinarith
  have : store .u16 ((n : Int) * ((n : Int) - 1)) = .ub := by
    unfold store ITy.op
    rw [if_pos (by rfl), if_neg (show ¬ ITy.u16.promote.In _ from hb)]; rfl
  rw [this]; rfl

example : 46342 ≤ 65535 ∧ ITy.u16.In ((65535 : Nat) : Int) := by decide

/-- **C150** (refuted for permutations).  `permutation(n, 0)` is `n` for every value `n ≥ 1` of every type; there is one arrangement. -/
theorem C150_permutation_zero_refuted (t : ITy) (n fuel : Nat) (hn : t.In n) (h1 : 1 ≤ n) : permutation t (fuel + 1) n 0 = .ok n := by
  unfold permutation
  rw [if_neg (by omega), store_in ⟨by have := (in_zero t).1; omega, by have := hn.2; omega⟩]
  rfl

example : ITy.u8.In ((7 : Nat) : Int) ∧ 1 ≤ 7 ∧ Nat.descFactorial 7 0 = 1 := by decide

/-- **C150** (partial).  Arguments outside the domain are reported in every type: negative ones, and `r > n`. -/
theorem C150_domain_partial (t : ITy) (fuel : Nat) (n r : Int) :
    (n < 0 → factorial t fuel n = .exit) ∧
    ((n < 0 ∨ r < 0 ∨ n < r) → permutation t fuel n r = .exit ∧ binomial t n r = .exit) := by
  refine ⟨fun h => ?_, fun h => ⟨?_, ?_⟩⟩
  · unfold factorial
    rw [if_pos h]
  · unfold permutation
    rw [if_pos h]
  · unfold binomial MathFns.binomial
    rw [if_pos (by omega)]

example : permutation .u8 10 3 4 = .exit ∧ binomial .i64 3 4 = .exit := by decide +kernel

/-! ### binomial coefficients -/

theorem wide_op {t : ITy} {x : Int} (h0 : 0 ≤ x) (h : x ≤ t.max) : t.op x = .ok x :=
  op_in ⟨by have := (in_zero t).1; omega, h⟩

/-- **C150** (partial).  For every type with at least 32 bits, `binomial(n, r)` is the number of `r`-element subsets of an `n`-element
set if that is a value of the type and the `int` counters suffice (`r` and `n - r` at most 2147483647) or nothing or everything is
chosen.  No further assumption: intermediate values never overflow. -/
theorem C150_binomial_partial (t : ITy) (_ht : Wide t) (n r : Nat) (hr : r ≤ n)
    (hc : r = 0 ∨ r = n ∨ (r ≤ 2147483647 ∧ n - r ≤ 2147483647))
    (h : t.In ((Finset.range n).powersetCard r).card) : binomial t n r = .ok ((Finset.range n).powersetCard r).card := by
  rw [Finset.card_powersetCard, Finset.card_range] at *
  have hI : INT_MAX = 2147483647 := rfl
  have hm := h.2
  refine binomial_phi (φ := fun k => (k : Int)) rfl n r hr (fun a b hab => ?_) (by omega)
  rw [← Nat.cast_add]
  exact wide_op (by omega) (by omega)

example : Wide .u32 ∧ 17 ≤ 34 ∧ (17 ≤ 2147483647 ∧ 34 - 17 ≤ 2147483647) ∧ ITy.u32.In ((Finset.range 34).powersetCard 17).card ∧
    ¬ ITy.i32.In ((Finset.range 34).powersetCard 17).card := by
  rw [Finset.card_powersetCard, Finset.card_range]; decide +kernel

/-- **C150** (partial).  In the unsigned types the result is always the residue of the binomial coefficient, if the counters suffice. -/
theorem C150_binomial_wrap_partial (t : ITy) (ht : t = .u32 ∨ t = .u64) (n r : Nat) (hr : r ≤ n)
    (hc : r = 0 ∨ r = n ∨ (r ≤ 2147483647 ∧ n - r ≤ 2147483647)) :
    ∃ v, binomial t n r = .ok v ∧ Reduced t v ((Finset.range n).powersetCard r).card := by
  rw [Finset.card_powersetCard, Finset.card_range] at *
  have hI : INT_MAX = 2147483647 := rfl
  have h1 : t.conv ((1 : Nat) : Int) = 1 := by cases t <;> decide
  refine ⟨_, binomial_phi (φ := fun k => t.conv (k : Int)) h1 n r hr (fun a b _ => ?_) (by omega), conv_in t _, conv_dvd t _⟩
  have e : ∀ x, t.op x = .ok (t.conv x) := by
    intro x; rcases ht with rfl | rfl <;> simp [ITy.op, ITy.conv, ITy.signed]
  rw [e, conv_add, ← Nat.cast_add]

example : 18 ≤ 36 ∧ (18 ≤ 2147483647 ∧ 36 - 18 ≤ 2147483647) ∧ ¬ ITy.u32.In ((Finset.range 36).powersetCard 18).card := by
  rw [Finset.card_powersetCard, Finset.card_range]; decide +kernel

/-- **C150** (partial).  In the signed types a coefficient that is not a value of the type makes the call undefined. -/
theorem C150_binomial_signed_partial (t : ITy) (ht : t = .i32 ∨ t = .i64) (n r : Nat) (hr : r ≤ n)
    (h : ¬ t.In ((Finset.range n).powersetCard r).card) : binomial t n r = .ub := by
  rw [Finset.card_powersetCard, Finset.card_range] at *
  have h0 := (in_zero t).1
  refine binomial_over (M := t.max) (by rcases ht with rfl | rfl <;> decide) (fun x h0 h => wide_op h0 h) (fun x hx => ?_) n r hr ?_
  · unfold ITy.op
    rw [if_pos (by rcases ht with rfl | rfl <;> rfl), if_neg (fun h => by have := h.2; omega)]
  · by_contra hn
    exact h ⟨by omega, by omega⟩

example : 17 ≤ 34 ∧ ¬ ITy.i32.In ((Finset.range 34).powersetCard 17).card := by
  rw [Finset.card_powersetCard, Finset.card_range]; decide +kernel

/-- **C150** (refuted for binomial coefficients).  In every type for which it compiles, choosing between 1 and `n - 1` things is undefined if `r` or `n - r`
exceeds the greatest `int`: `binomial(4294967296L, 1L)` is undefined, although the answer is 4294967296. -/
theorem C150_binomial_refuted (t : ITy) (n r : Nat) (h0 : 0 < r) (hr : r < n) (hc : 2147483647 < r ∨ 2147483647 < n - r) :
    binomial t n r = .ub :=
  binomial_counter t.op n r h0 hr (by have hI : INT_MAX = 2147483647 := rfl; omega)

example : 0 < 1 ∧ 1 < 4294967296 ∧ (2147483647 < 1 ∨ 2147483647 < 4294967296 - 1) ∧
    ITy.i64.In ((Finset.range 4294967296).powersetCard 1).card := by
  rw [Finset.card_powersetCard, Finset.card_range]; simp; decide

end FactTypes
