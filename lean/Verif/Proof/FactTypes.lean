import Verif.Model.FactTypes
import Verif.Spec.FactTypes
import Verif.Proof.GcdTypes
import Verif.Proof.Count

/-! # Helper lemmas for `factorial`, `permutation` and `binomial` of all integer types -/

namespace FactTypes
open Cpp GcdTypes Spec

theorem promote_in {t : ITy} {x : Int} (h : t.In x) : t.promote.In x := by
  cases t <;> simp [ITy.In, ITy.min, ITy.max, ITy.bits, ITy.signed, ITy.promote] at * <;> omega

theorem store_in {t : ITy} {x : Int} (h : t.In x) : store t x = .ok x := by
  unfold store
  rw [op_in (promote_in h), Out.ok_bind, conv_of_in h]

theorem store_ub (t : ITy) {x : Int} (hp : t.promote = t) (hs : t.signed = true) (h : ¬ t.In x) : store t x = .ub := by
  unfold store ITy.op
  rw [hp, if_pos hs, if_neg h]; rfl

theorem conv_in (t : ITy) (x : Int) : t.In (t.conv x) := by
  cases t <;> simp [ITy.In, ITy.min, ITy.max, ITy.bits, ITy.signed, ITy.conv, Int.bmod] <;> omega

theorem conv_dvd (t : ITy) (x : Int) : (2 : Int) ^ t.bits ∣ t.conv x - x := by
  cases t <;> simp [ITy.bits, ITy.signed, ITy.conv, Int.bmod] <;> omega

theorem conv_eq {t : ITy} {x y : Int} (h : (2 : Int) ^ t.bits ∣ x - y) : t.conv x = t.conv y := by
  cases t <;> simp [ITy.bits, ITy.signed, ITy.conv, Int.bmod] at * <;> omega

theorem conv_mul (t : ITy) (x y : Int) : t.conv (t.conv x * y) = t.conv (x * y) := by
  apply conv_eq
  rw [← sub_mul]
  exact dvd_mul_of_dvd_left (conv_dvd t x) y

theorem conv_add (t : ITy) (x y : Int) : t.conv (t.conv x + t.conv y) = t.conv (x + y) := by
  apply conv_eq
  have := Int.dvd_add (conv_dvd t x) (conv_dvd t y)
  have e : t.conv x - x + (t.conv y - y) = t.conv x + t.conv y - (x + y) := by ring
  rwa [e] at this

theorem conv_zero (t : ITy) : t.conv 0 = 0 := by cases t <;> decide

theorem conv_zero_of_dvd {t : ITy} {x : Int} (h : (2 : Int) ^ t.bits ∣ x) : t.conv x = 0 := by
  rw [← conv_zero t]; exact conv_eq (by simpa using h)

/-- In the wrapping types a product that fits in `int` (or anything, in the unsigned types) is reduced. -/
theorem store_wrap {t : ITy} (ht : Wraps t) {x : Int} (h : ITy.i32.In x ∨ t = .u32 ∨ t = .u64) :
    store t x = .ok (t.conv x) := by
  by_cases hw : t = .u32 ∨ t = .u64
  · rcases hw with rfl | rfl <;> simp [store, ITy.promote, ITy.op, ITy.signed, ITy.conv, ITy.bits]
  · have h : ITy.i32.In x := by tauto
    have hp : t.promote = .i32 := by
      revert ht hw; cases t <;> decide
    unfold store
    rw [hp, op_in h, Out.ok_bind]

theorem wide_store {t : ITy} (hw : Wraps t) : ∀ x : Int, (t = .u32 ∨ t = .u64) → store t x = .ok (t.conv x) :=
  fun _ h => store_wrap hw (.inr h)

theorem dvd_factorial (t : ITy) (k : Nat) (hk : 66 ≤ k) : (2 : Int) ^ t.bits ∣ (k.factorial : Int) := by
  have h1 : Nat.factorial 66 ∣ k.factorial := Nat.factorial_dvd_factorial hk
  have h2 : 2 ^ t.bits ∣ Nat.factorial 66 := by cases t <;> decide +kernel
  have := h2.trans h1
  exact_mod_cast this

theorem conv_abs {t : ITy} (h : ¬ (t = .u32 ∨ t = .u64)) (hw : Wraps t) (x : Int) : -65536 ≤ t.conv x ∧ t.conv x ≤ 65536 := by
  have := conv_in t x
  revert h hw this
  cases t <;> simp [ITy.In, ITy.min, ITy.max, ITy.bits, ITy.signed, Wraps] <;> omega

/-- one product of the loop of `factorial` -/
theorem store_fac {t : ITy} (ht : Wraps t) (k : Nat) (hk : k < 66 ∨ t.conv (k.factorial : Int) = 0) :
    store t (t.conv (k.factorial : Int) * ((k + 1 : Nat) : Int)) = .ok (t.conv ((k + 1).factorial : Nat)) := by
  rw [store_wrap ht, conv_mul, ← Nat.cast_mul, Nat.mul_comm, ← Nat.factorial_succ]
  by_cases hw : t = .u32 ∨ t = .u64
  · exact .inr hw
  · refine .inl ?_
    rcases hk with hk | hk
    · have ha := conv_abs hw ht (k.factorial : Int)
      generalize t.conv (k.factorial : Int) = y at ha
      have e1 : ITy.i32.min = -2147483648 := rfl
      have e2 : ITy.i32.max = 2147483647 := rfl
      have hk1 : ((k + 1 : Nat) : Int) ≤ 66 := by omega
      have hk0 : (0 : Int) ≤ ((k + 1 : Nat) : Int) := by omega
      generalize ((k + 1 : Nat) : Int) = z at hk1 hk0
      constructor
      · rw [e1]; nlinarith
      · rw [e2]; nlinarith
    · rw [hk, Int.zero_mul]; decide

theorem facGo_wrap {t : ITy} (ht : Wraps t) (n : Nat) (hn : (n : Int) < t.max) :
    ∀ (d fuel k : Nat), k + d = n → d < fuel → facGo t n fuel ((k + 1 : Nat) : Int) (t.conv (k.factorial : Int)) = .ok (t.conv (n.factorial : Int)) := by
  intro d
  induction d with
  | zero =>
    intro fuel k hk hf
    obtain ⟨fuel, rfl⟩ : ∃ f, fuel = f + 1 := ⟨fuel - 1, by omega⟩
    unfold facGo
    rw [if_neg (by omega), show k = n by omega]
  | succ d ih =>
    intro fuel k hk hf
    obtain ⟨fuel, rfl⟩ : ∃ f, fuel = f + 1 := ⟨fuel - 1, by omega⟩
    unfold facGo
    rw [if_pos (by omega), store_fac ht k, Out.ok_bind,
      store_in (x := ((k + 1 : Nat) : Int) + 1) ⟨by have := (in_zero t).1; omega, by omega⟩, Out.ok_bind]
    · exact ih fuel (k + 1) (by omega) (by omega)
    · by_cases h : k < 66
      · exact .inl h
      · exact .inr (conv_zero_of_dvd (dvd_factorial t k (by omega)))

theorem factorial_wrap {t : ITy} (ht : Wraps t) (n fuel : Nat) (hn : (n : Int) < t.max) (hf : n < fuel) :
    factorial t fuel n = .ok (t.conv (n.factorial : Int)) := by
  unfold factorial
  rw [if_neg (by omega)]
  have h1 : t.conv 1 = 1 := by cases t <;> decide
  rcases Nat.eq_zero_or_pos n with rfl | h
  · obtain ⟨fuel, rfl⟩ : ∃ f, fuel = f + 1 := ⟨fuel - 1, by omega⟩
    unfold facGo
    rw [if_neg (by decide)]
    simp [h1]
  · have := facGo_wrap ht n hn (n - 1) fuel 1 (by omega) (by omega)
    simpa [h1] using this

/-- the state of the loop that never ends -/
def Endless (t : ITy) (i fac : Int) : Prop :=
  t.In i ∧ (fac = 0 ∨ ∃ k : Nat, i = (k : Int) + 1 ∧ fac = t.conv (k.factorial : Int) ∧ k < 66)

theorem facGo_endless {t : ITy} (ht : Wraps t) : ∀ (fuel : Nat) (i fac : Int), Endless t i fac → facGo t t.max fuel i fac = .diverge := by
  intro fuel
  induction fuel with
  | zero => intro i fac _; rfl
  | succ fuel ih =>
    intro i fac h
    unfold facGo
    rw [if_pos h.1.2]
    have hi : ∃ i', store t (i + 1) = .ok i' ∧ t.In i' ∧ (i < t.max → i' = i + 1) := by
      by_cases hm : i < t.max
      · exact ⟨i + 1, store_in ⟨by have := h.1.1; omega, by omega⟩, ⟨by have := h.1.1; omega, by omega⟩, fun _ => rfl⟩
      · refine ⟨t.conv (i + 1), store_wrap ht ?_, conv_in t _, fun h => absurd h hm⟩
        have := h.1
        revert this ht
        cases t <;> simp [ITy.In, ITy.min, ITy.max, ITy.bits, ITy.signed, Wraps] <;> omega
    obtain ⟨i', e2, h2, h3⟩ := hi
    obtain ⟨hI, h0 | ⟨k, rfl, rfl, hk⟩⟩ := h
    · subst h0
      rw [Int.zero_mul, store_in ⟨(in_zero t).1, (in_zero t).2⟩, Out.ok_bind, e2, Out.ok_bind]
      exact ih _ _ ⟨h2, .inl rfl⟩
    · have := store_fac ht k (.inl hk)
      rw [show ((k + 1 : Nat) : Int) = (k : Int) + 1 by omega] at this
      rw [this, Out.ok_bind, e2, Out.ok_bind]
      refine ih _ _ ⟨h2, ?_⟩
      by_cases hk' : k + 1 < 66
      · refine .inr ⟨k + 1, ?_, rfl, hk'⟩
        rw [h3 (by have : 127 ≤ t.max := by cases t <;> decide
                   omega)]
        omega
      · exact .inl (conv_zero_of_dvd (dvd_factorial t (k + 1) (by omega)))

theorem facGo_exact {t : ITy} (n : Nat) (hn : (n : Int) ≤ t.max) :
    ∀ (d fuel k : Nat), k + d = n → d < fuel → ((k.factorial : Int) ≤ t.max) →
      (((n.factorial : Int) ≤ t.max) → facGo t n fuel ((k + 1 : Nat) : Int) (k.factorial : Int) = .ok (n.factorial : Int)) ∧
      (¬ Wraps t → ¬ ((n.factorial : Int) ≤ t.max) → facGo t n fuel ((k + 1 : Nat) : Int) (k.factorial : Int) = .ub) := by
  intro d
  induction d with
  | zero =>
    intro fuel k hk hf h
    obtain ⟨fuel, rfl⟩ : ∃ f, fuel = f + 1 := ⟨fuel - 1, by omega⟩
    obtain rfl : k = n := by omega
    unfold facGo
    rw [if_neg (by omega)]
    exact ⟨fun _ => rfl, fun _ h' => absurd h h'⟩
  | succ d ih =>
    intro fuel k hk hf h
    obtain ⟨fuel, rfl⟩ : ∃ f, fuel = f + 1 := ⟨fuel - 1, by omega⟩
    have em : (k.factorial : Int) * ((k + 1 : Nat) : Int) = (((k + 1).factorial : Nat) : Int) := by
      rw [← Nat.cast_mul, Nat.mul_comm, ← Nat.factorial_succ]
    unfold facGo
    rw [if_pos (by omega), em]
    have h0 := (in_zero t).1
    have hp : (0 : Int) ≤ (((k + 1).factorial : Nat) : Int) := by omega
    by_cases hs : (((k + 1).factorial : Nat) : Int) ≤ t.max
    · -- the product fits
      rw [store_in (⟨by omega, hs⟩ : t.In (((k + 1).factorial : Nat) : Int)), Out.ok_bind]
      by_cases hm : ((k + 1 : Nat) : Int) + 1 ≤ t.max
      · rw [store_in (x := ((k + 1 : Nat) : Int) + 1) ⟨by omega, hm⟩, Out.ok_bind]
        exact ih fuel (k + 1) (by omega) (by omega) hs
      · -- impossible: (k+1)! would be greater than the greatest value
        exfalso
        have h127 : 127 ≤ t.max := by cases t <;> decide
        have hk3 : 126 ≤ k + 1 := by omega
        obtain ⟨j, rfl⟩ : ∃ j, k = j + 2 := ⟨k - 2, by omega⟩
        have e : (j + 2 + 1).factorial = (j + 3) * ((j + 2) * (j + 1).factorial) := by
          rw [Nat.factorial_succ, Nat.factorial_succ]
        have hpos : 1 ≤ (j + 1).factorial := Nat.factorial_pos _
        have : (j + 3) * (2 * 1) ≤ (j + 2 + 1).factorial := by
          rw [e]
          exact Nat.mul_le_mul_left _ (Nat.mul_le_mul (by omega) hpos)
        omega
    · have hle : (k + 1).factorial ≤ n.factorial := Nat.factorial_le (by omega)
      refine ⟨fun h' => absurd (by omega) hs, fun ht _ => ?_⟩
      have : store t (((k + 1).factorial : Nat) : Int) = .ub := by
        have : t = .i32 ∨ t = .i64 := by unfold Wraps at ht; tauto
        rcases this with rfl | rfl
        · exact store_ub _ rfl rfl (fun h => hs h.2)
        · exact store_ub _ rfl rfl (fun h => hs h.2)
      rw [this]; rfl

theorem factorial_exact {t : ITy} (n fuel : Nat) (hn : (n : Int) ≤ t.max) (hf : n < fuel) :
    (((n.factorial : Int) ≤ t.max) → factorial t fuel n = .ok (n.factorial : Int)) ∧
    (¬ Wraps t → ¬ ((n.factorial : Int) ≤ t.max) → factorial t fuel n = .ub) := by
  have h1 : (1 : Int) ≤ t.max := by cases t <;> decide
  unfold factorial
  rw [if_neg (by omega)]
  rcases Nat.eq_zero_or_pos n with rfl | h
  · obtain ⟨fuel, rfl⟩ : ∃ f, fuel = f + 1 := ⟨fuel - 1, by omega⟩
    unfold facGo
    rw [if_neg (by decide)]
    exact ⟨fun _ => by simp, fun _ h' => absurd (by simpa using h1) h'⟩
  · have := facGo_exact n hn (n - 1) fuel 1 (by omega) (by omega) (by simpa using h1)
    simpa using this

/-! ### permutations -/

/-- `φ` describes how the products are kept -/
theorem permGo_eq {t : ITy} (φ : Nat → Int) (B : Nat) (hφ : ∀ a b : Nat, a * b ≤ B → (b : Int) ≤ t.max → store t (φ a * (b : Int)) = .ok (φ (a * b))) :
    ∀ (r fuel p n : Nat), r ≤ n + 1 → r < fuel → (n : Int) ≤ t.max → p * n.descFactorial (r - 1) ≤ B →
      permGo t fuel (φ p) n r = .ok (φ (p * n.descFactorial (r - 1))) := by
  have h0 := (in_zero t).1
  intro r
  induction r with
  | zero =>
    intro fuel p n _ hf _ _
    obtain ⟨fuel, rfl⟩ : ∃ f, fuel = f + 1 := ⟨fuel - 1, by omega⟩
    unfold permGo
    rw [if_neg (by omega)]; simp
  | succ r ih =>
    intro fuel p n hr hf hn hB
    obtain ⟨fuel, rfl⟩ : ∃ f, fuel = f + 1 := ⟨fuel - 1, by omega⟩
    unfold permGo
    rcases Nat.eq_zero_or_pos r with rfl | hr0
    · rw [if_neg (by omega)]; simp
    obtain ⟨m, rfl⟩ : ∃ m, n = m + 1 := ⟨n - 1, by omega⟩
    obtain ⟨q, rfl⟩ : ∃ q, r = q + 1 := ⟨r - 1, by omega⟩
    have hd : p * (m + 1).descFactorial (q + 1 + 1 - 1) = p * (m + 1) * m.descFactorial (q + 1 - 1) := by
      simp only [Nat.add_sub_cancel]
      rw [Nat.succ_descFactorial_succ]; ring
    have hpos : 0 < m.descFactorial (q + 1 - 1) := Nat.pos_of_ne_zero (by
      rw [Ne, Nat.descFactorial_eq_zero_iff_lt]; omega)
    rw [hd] at hB ⊢
    rw [if_pos (by omega), hφ p (m + 1) (le_trans (Nat.le_mul_of_pos_right _ hpos) hB) hn, Out.ok_bind,
      store_in (x := ((q + 1 + 1 : Nat) : Int) - 1) ⟨by omega, by omega⟩, Out.ok_bind,
      store_in (x := ((m + 1 : Nat) : Int) - 1) ⟨by omega, by omega⟩, Out.ok_bind]
    rw [show ((m + 1 : Nat) : Int) - 1 = (m : Nat) by omega, show ((q + 1 + 1 : Nat) : Int) - 1 = (q + 1 : Nat) by omega]
    exact ih fuel (p * (m + 1)) m (by omega) (by omega) (by omega) hB

theorem permutation_phi {t : ITy} (φ : Nat → Int) (n r fuel : Nat) (h0 : 0 < r) (hr : r ≤ n) (hn : (n : Int) ≤ t.max) (hf : r < fuel)
    (h1 : φ n = n)
    (hφ : ∀ a b : Nat, a * b ≤ n.descFactorial r → (b : Int) ≤ t.max → store t (φ a * (b : Int)) = .ok (φ (a * b))) :
    permutation t fuel n r = .ok (φ (n.descFactorial r)) := by
  have h0' := (in_zero t).1
  unfold permutation
  obtain ⟨m, rfl⟩ : ∃ m, n = m + 1 := ⟨n - 1, by omega⟩
  obtain ⟨q, rfl⟩ : ∃ q, r = q + 1 := ⟨r - 1, by omega⟩
  rw [if_neg (by omega), store_in (x := ((m + 1 : Nat) : Int) - 1) ⟨by omega, by omega⟩, Out.ok_bind,
    show ((m + 1 : Nat) : Int) - 1 = (m : Nat) by omega, ← h1]
  have e : (m + 1).descFactorial (q + 1) = (m + 1) * m.descFactorial (q + 1 - 1) := by
    rw [Nat.succ_descFactorial_succ]; simp
  rw [e] at hφ ⊢
  exact permGo_eq φ _ hφ (q + 1) fuel (m + 1) m (by omega) hf (by omega) (le_refl _)

theorem permGo_ub {t : ITy} (hp : t.promote = t) (hs : t.signed = true) :
    ∀ (r fuel p n : Nat), r ≤ n + 1 → r < fuel → (n : Int) ≤ t.max → (p : Int) ≤ t.max →
      ¬ ((p * n.descFactorial (r - 1) : Nat) : Int) ≤ t.max → permGo t fuel p n r = .ub := by
  have h0 := (in_zero t).1
  intro r
  induction r with
  | zero =>
    intro fuel p n _ _ _ hp' h
    simp at h
    omega
  | succ r ih =>
    intro fuel p n hr hf hn hp' h
    obtain ⟨fuel, rfl⟩ : ∃ f, fuel = f + 1 := ⟨fuel - 1, by omega⟩
    rcases Nat.eq_zero_or_pos r with rfl | hr0
    · simp at h
      omega
    obtain ⟨m, rfl⟩ : ∃ m, n = m + 1 := ⟨n - 1, by omega⟩
    obtain ⟨q, rfl⟩ : ∃ q, r = q + 1 := ⟨r - 1, by omega⟩
    have hd : p * (m + 1).descFactorial (q + 1 + 1 - 1) = p * (m + 1) * m.descFactorial (q + 1 - 1) := by
      simp only [Nat.add_sub_cancel]
      rw [Nat.succ_descFactorial_succ]; ring
    rw [hd] at h
    unfold permGo
    rw [if_pos (by omega), ← Nat.cast_mul]
    by_cases hin : ((p * (m + 1) : Nat) : Int) ≤ t.max
    · rw [store_in ⟨by omega, hin⟩, Out.ok_bind,
        store_in (x := ((q + 1 + 1 : Nat) : Int) - 1) ⟨by omega, by omega⟩, Out.ok_bind,
        store_in (x := ((m + 1 : Nat) : Int) - 1) ⟨by omega, by omega⟩, Out.ok_bind,
        show ((m + 1 : Nat) : Int) - 1 = (m : Nat) by omega, show ((q + 1 + 1 : Nat) : Int) - 1 = (q + 1 : Nat) by omega]
      exact ih fuel (p * (m + 1)) m (by omega) (by omega) (by omega) hin h
    · rw [store_ub t hp hs (fun h => hin h.2)]
      rfl

/-- a product of two values of a small type fits in `int`, except in `unsigned short` -/
theorem small_product {t : ITy} (h : t = .i8 ∨ t = .u8 ∨ t = .i16) {a b : Int} (ha : t.In a) (h0 : 0 ≤ b) (hb : b ≤ t.max) :
    ITy.i32.In (a * b) := by
  have key : -32768 ≤ a ∧ a ≤ 32767 ∧ b ≤ 32767 := by
    rcases h with rfl | rfl | rfl <;>
      simp [ITy.In, ITy.min, ITy.max, ITy.bits, ITy.signed] at ha hb <;> omega
  obtain ⟨h1, h2, h3⟩ := key
  constructor
  · show -2147483648 ≤ a * b
    nlinarith
  · show a * b ≤ 2147483647
    nlinarith

/-! ### binomial coefficients -/

open MathFns in
/-- During pass `i`, cells below `j` are already updated; cells hold `φ` of the mathematical value. -/
structure RowP (φ : Nat → Int) (r i j : Nat) (c : Arr Int) : Prop where
  size : c.size = r
  done : ∀ k, k < r → k < j → c.cell k = some (φ (bc (i + 1) k))
  todo : ∀ k, k < r → j ≤ k → c.cell k = some (φ (bc i k))

open MathFns in
theorem cell_rowP {ar : Int → Out Int} {φ : Nat → Int} {B : Nat} (h1 : φ 1 = 1)
    (hφ : ∀ a b : Nat, a + b ≤ B → ar (φ a + φ b) = .ok (φ (a + b))) (r i j : Nat) (c : Arr Int)
    (hj : j < r) (hB : bc (i + 1) (r - 1) ≤ B) (h : RowP φ r i j c) :
    ∃ c', binomialCell ar c j = .ok c' ∧ RowP φ r i (j + 1) c' := by
  have hg : c.get (j : Int) = .ok (φ (bc i j)) :=
    Arr.get_ok (by rw [h.size]; exact hj) (h.todo j hj (le_refl _))
  have hset : ∀ v : Int, v = φ (bc (i + 1) j) → ∃ c', c.set j v = .ok c' ∧ RowP φ r i (j + 1) c' := by
    rintro v rfl
    refine ⟨_, Arr.set_ok (by rw [h.size]; exact hj), h.size, ?_, ?_⟩
    · intro k hk hk'
      by_cases e : k = j
      · subst e; simp
      · simp only [e, if_false]; exact h.done k hk (by omega)
    · intro k hk hk'
      simp only [show k ≠ j by omega, if_false]; exact h.todo k hk (by omega)
  have hle : bc (i + 1) j ≤ B := le_trans (bc_mono (le_refl _) (by omega)) hB
  unfold binomialCell
  by_cases h0 : j = 0
  · rw [if_pos h0, hg]
    simp only [Out.ok_bind]
    subst h0
    rw [bc_succ_zero] at hle
    have := hφ (bc i 0) 1 hle
    rw [h1, ← bc_succ_zero] at this
    rw [this]
    exact hset _ rfl
  · rw [if_neg h0, hg]
    obtain ⟨k, rfl⟩ : ∃ k, j = k + 1 := ⟨j - 1, by omega⟩
    have hg2 : c.get (((k + 1 : Nat) : Int) - 1) = .ok (φ (bc (i + 1) k)) := by
      rw [show ((k + 1 : Nat) : Int) - 1 = (k : Nat) by omega]
      exact Arr.get_ok (by rw [h.size]; omega) (h.done k (by omega) (by omega))
    simp only [Out.ok_bind, hg2]
    rw [bc_succ_succ] at hle
    rw [hφ _ _ hle, ← bc_succ_succ]
    exact hset _ rfl

open MathFns in
theorem binomialLoop_phi {ar : Int → Out Int} {φ : Nat → Int} (h1 : φ 1 = 1) (n r : Nat) (hr : r ≤ n)
    (hφ : ∀ a b : Nat, a + b ≤ n.choose r → ar (φ a + φ b) = .ok (φ (a + b)))
    (hc : r = 0 ∨ ((n - r : Nat) : Int) ≤ INT_MAX) :
    binomialLoop ar n r = .ok (φ (n.choose r)) := by
  unfold binomialLoop
  by_cases h0 : r = 0
  · subst h0; simp [h1]
  rw [if_neg h0, if_neg (show ¬ INT_MAX < ((n - r : Nat) : Int) by
    rcases hc with h | h
    · exact absurd h h0
    · omega)]
  obtain ⟨c1, e1, p1⟩ := foldlM_range_inv (fun (c : Arr Int) i => c.set (i : Int) 1)
    (fun k c => c.size = r ∧ ∀ j, j < k → c.cell j = some 1) r (Arr.new r)
    ⟨rfl, fun j hj => by omega⟩
    (by
      rintro k hk s ⟨h1, h2⟩
      refine ⟨_, Arr.set_ok (by rw [h1]; exact hk), h1, ?_⟩
      intro j hj
      by_cases e : j = k
      · simp [e]
      · simp only [e, if_false]; exact h2 j (by omega))
  have hbc : bc (n - r) (r - 1) = n.choose r := by
    unfold bc
    rw [show n - r + (r - 1) + 1 = n by omega, show r - 1 + 1 = r by omega]
  obtain ⟨c2, e2, p2⟩ := foldlM_range_inv
    (fun (c : Arr Int) (_ : Nat) => (List.range r).foldlM (binomialCell ar) c)
    (fun i c => RowP φ r i 0 c) (n - r) c1
    ⟨p1.1, fun k _ hk => by omega, fun k hk _ => by rw [p1.2 k hk, bc_zero, h1]⟩
    (by
      intro i hi s hs
      obtain ⟨c, e, p⟩ := foldlM_range_inv (binomialCell ar) (fun j c => RowP φ r i j c) r s hs
        (fun j hj s hs => cell_rowP h1 hφ r i j s hj (by
          rw [← hbc]; exact bc_mono (by omega) (le_refl _)) hs)
      exact ⟨c, e, p.size, fun k _ hk => by omega, fun k hk _ => p.done k hk hk⟩)
  dsimp only
  rw [e1, Out.ok_bind, e2, Out.ok_bind]
  rw [show (r : Int) - 1 = ((r - 1 : Nat) : Int) by omega,
    Arr.get_ok (by rw [p2.size]; omega) (p2.todo (r - 1) (by omega) (Nat.zero_le _)), hbc]

theorem binomial_phi {ar : Int → Out Int} {φ : Nat → Int} (h1 : φ 1 = 1) (n r : Nat) (hr : r ≤ n)
    (hφ : ∀ a b : Nat, a + b ≤ n.choose r → ar (φ a + φ b) = .ok (φ (a + b)))
    (hc : r = 0 ∨ r = n ∨ ((r : Int) ≤ INT_MAX ∧ ((n - r : Nat) : Int) ≤ INT_MAX)) :
    MathFns.binomial ar n r = .ok (φ (n.choose r)) := by
  unfold MathFns.binomial
  rw [if_neg (by omega)]
  by_cases h0 : r = 0
  · subst h0; simp [h1]
  rw [if_neg (by omega)]
  split
  · rw [show ((n : Int) - r).toNat = n - r by omega, Int.toNat_natCast,
      binomialLoop_phi h1 n (n - r) (by omega) (by rw [Nat.choose_symm hr]; exact hφ)
        (by rw [show n - (n - r) = r by omega]; omega),
      Nat.choose_symm hr]
  · rw [Int.toNat_natCast, Int.toNat_natCast]
    exact binomialLoop_phi h1 n r hr hφ (by omega)

/-- the counters overflow -/
theorem binomial_counter (ar : Int → Out Int) (n r : Nat) (h0 : 0 < r) (hr : r < n)
    (hc : INT_MAX < (r : Int) ∨ INT_MAX < ((n - r : Nat) : Int)) : MathFns.binomial ar n r = .ub := by
  unfold MathFns.binomial
  rw [if_neg (by omega), if_neg (by omega)]
  split
  · rw [show ((n : Int) - r).toNat = n - r by omega, Int.toNat_natCast]
    unfold MathFns.binomialLoop
    rw [if_neg (by omega), if_pos (by rw [show n - (n - r) = r by omega]; omega)]
  · rw [Int.toNat_natCast, Int.toNat_natCast]
    unfold MathFns.binomialLoop
    rw [if_neg (by omega), if_pos (by omega)]

/-! ### signed overflow of a binomial coefficient -/

theorem foldlM_range_or {σ : Type} (f : σ → Nat → Out σ) (P : Nat → σ → Prop) (n : Nat) (s : σ)
    (h0 : P 0 s) (hs : ∀ k, k < n → ∀ s, P k s → (∃ s', f s k = .ok s' ∧ P (k + 1) s') ∨ f s k = .ub) :
    (∃ s', (List.range n).foldlM f s = .ok s' ∧ P n s') ∨ (List.range n).foldlM f s = .ub := by
  induction n with
  | zero => exact .inl ⟨s, rfl, h0⟩
  | succ n ih =>
    rw [List.range_succ, List.foldlM_append]
    rcases ih (fun k hk => hs k (by omega)) with ⟨s1, e1, p1⟩ | e1
    · rw [e1]
      rcases hs n (by omega) s1 p1 with ⟨s2, e2, p2⟩ | e2
      · exact .inl ⟨s2, by simp [e2], p2⟩
      · exact .inr (by simp [e2])
    · exact .inr (by rw [e1]; rfl)

/-- rows whose cells all fit -/
def RowM (M : Int) (r i j : Nat) (c : Arr Int) : Prop :=
  RowP (fun k => (k : Int)) r i j c ∧ ∀ k, k < r → ∀ v, c.cell k = some v → v ≤ M

open MathFns in
theorem cell_rowM {ar : Int → Out Int} {M : Int} (h1 : ∀ x, 0 ≤ x → x ≤ M → ar x = .ok x) (h2 : ∀ x, M < x → ar x = .ub)
    (r i j : Nat) (c : Arr Int) (hj : j < r) (h : RowM M r i j c) :
    (∃ c', binomialCell ar c j = .ok c' ∧ RowM M r i (j + 1) c') ∨ binomialCell ar c j = .ub := by
  obtain ⟨h, hM⟩ := h
  have hg : c.get (j : Int) = .ok ((bc i j : Nat) : Int) :=
    Arr.get_ok (by rw [h.size]; exact hj) (h.todo j hj (le_refl _))
  have hset : ∀ v : Int, v = ((bc (i + 1) j : Nat) : Int) → v ≤ M → ∃ c', c.set j v = .ok c' ∧ RowM M r i (j + 1) c' := by
    rintro v rfl hv
    refine ⟨_, Arr.set_ok (by rw [h.size]; exact hj), ⟨h.size, ?_, ?_⟩, ?_⟩
    · intro k hk hk'
      by_cases e : k = j
      · subst e; simp
      · simp only [e, if_false]; exact h.done k hk (by omega)
    · intro k hk hk'
      simp only [show k ≠ j by omega, if_false]; exact h.todo k hk (by omega)
    · intro k hk v e
      by_cases ek : k = j
      · subst ek
        simp only [if_true, Option.some.injEq] at e
        omega
      · simp only [ek, if_false] at e
        exact hM k hk v e
  have hend : ∀ x : Int, x = ((bc (i + 1) j : Nat) : Int) →
      (∃ c', (ar x >>= fun y => c.set j y) = .ok c' ∧ RowM M r i (j + 1) c') ∨ (ar x >>= fun y => c.set j y) = .ub := by
    intro x e
    by_cases hx : x ≤ M
    · rw [h1 x (by omega) hx, Out.ok_bind]
      exact .inl (hset x e hx)
    · rw [h2 x (by omega)]
      exact .inr rfl
  unfold binomialCell
  by_cases h0 : j = 0
  · rw [if_pos h0, hg]
    simp only [Out.ok_bind]
    subst h0
    exact hend _ (by rw [bc_succ_zero]; simp)
  · rw [if_neg h0, hg]
    obtain ⟨k, rfl⟩ : ∃ k, j = k + 1 := ⟨j - 1, by omega⟩
    have hg2 : c.get (((k + 1 : Nat) : Int) - 1) = .ok ((bc (i + 1) k : Nat) : Int) := by
      rw [show ((k + 1 : Nat) : Int) - 1 = (k : Nat) by omega]
      exact Arr.get_ok (by rw [h.size]; omega) (h.done k (by omega) (by omega))
    simp only [Out.ok_bind, hg2]
    exact hend _ (by rw [bc_succ_succ]; simp)

open MathFns in
theorem binomialLoop_over {ar : Int → Out Int} {M : Int} (h0M : 1 ≤ M) (h1 : ∀ x, 0 ≤ x → x ≤ M → ar x = .ok x)
    (h2 : ∀ x, M < x → ar x = .ub) (n r : Nat) (hr : r ≤ n) (h : M < (n.choose r : Int)) : binomialLoop ar n r = .ub := by
  unfold binomialLoop
  by_cases h0 : r = 0
  · subst h0; simp at h; omega
  rw [if_neg h0]
  by_cases hc : INT_MAX < ((n - r : Nat) : Int)
  · rw [if_pos hc]
  rw [if_neg hc]
  obtain ⟨c1, e1, p1⟩ := foldlM_range_inv (fun (c : Arr Int) i => c.set (i : Int) 1)
    (fun k c => c.size = r ∧ ∀ j, j < k → c.cell j = some 1) r (Arr.new r)
    ⟨rfl, fun j hj => by omega⟩
    (by
      rintro k hk s ⟨h1, h2⟩
      refine ⟨_, Arr.set_ok (by rw [h1]; exact hk), h1, ?_⟩
      intro j hj
      by_cases e : j = k
      · simp [e]
      · simp only [e, if_false]; exact h2 j (by omega))
  have hbc : bc (n - r) (r - 1) = n.choose r := by
    unfold bc
    rw [show n - r + (r - 1) + 1 = n by omega, show r - 1 + 1 = r by omega]
  have hf := foldlM_range_or
    (fun (c : Arr Int) (_ : Nat) => (List.range r).foldlM (binomialCell ar) c)
    (fun i c => RowM M r i 0 c) (n - r) c1
    ⟨⟨p1.1, fun k _ hk => by omega, fun k hk _ => by rw [p1.2 k hk, bc_zero]; rfl⟩, fun k hk v e => by
      rw [p1.2 k hk] at e
      cases e; exact h0M⟩
    (by
      intro i hi s hs
      rcases foldlM_range_or (binomialCell ar) (fun j c => RowM M r i j c) r s hs
        (fun j hj s hs => cell_rowM h1 h2 r i j s hj hs) with ⟨c, e, p⟩ | e
      · exact .inl ⟨c, e, ⟨p.1.size, fun k _ hk => by omega, fun k hk _ => p.1.done k hk hk⟩, p.2⟩
      · exact .inr e)
  dsimp only
  rw [e1, Out.ok_bind]
  rcases hf with ⟨c2, e2, p2⟩ | e2
  · exfalso
    have := p2.2 (r - 1) (by omega) _ (p2.1.todo (r - 1) (by omega) (Nat.zero_le _))
    simp only [hbc] at this
    omega
  · rw [e2]; rfl

theorem binomial_over {ar : Int → Out Int} {M : Int} (h0M : 1 ≤ M) (h1 : ∀ x, 0 ≤ x → x ≤ M → ar x = .ok x)
    (h2 : ∀ x, M < x → ar x = .ub) (n r : Nat) (hr : r ≤ n) (h : M < (n.choose r : Int)) : MathFns.binomial ar n r = .ub := by
  unfold MathFns.binomial
  rw [if_neg (by omega)]
  by_cases h0 : r = 0
  · subst h0; simp at h; omega
  rw [if_neg (by omega)]
  split
  · rw [show ((n : Int) - r).toNat = n - r by omega, Int.toNat_natCast]
    exact binomialLoop_over h0M h1 h2 n (n - r) (by omega) (by rw [Nat.choose_symm hr]; exact h)
  · rw [Int.toNat_natCast, Int.toNat_natCast]
    exact binomialLoop_over h0M h1 h2 n r hr h

end FactTypes
