import Verif.Model.Stats
import Verif.Spec.Stats
import Mathlib.Algebra.Order.BigOperators.Group.List
import Mathlib.Tactic.Ring
import Mathlib.Tactic.Linarith
import Mathlib.Tactic.FieldSimp
import Mathlib.Tactic.Positivity
import Mathlib.Data.Rat.Cast.Order

namespace Stats
open Cpp

/-! ### The loop over an array -/

theorem range_take {T S : Type} (arr : List T) (body : S → T → Out S) (n : Nat) (h : n ≤ arr.length) (s : S) :
    (List.range n).foldlM (fun s i => do
      let x ← read arr i
      body s x) s = (arr.take n).foldlM body s := by
  induction n with
  | zero => simp
  | succ n ih =>
    rw [List.range_succ, List.foldlM_append, ih (by omega), List.take_add_one, List.foldlM_append,
      List.getElem?_eq_getElem (by omega)]
    congr 1
    funext t
    simp only [List.foldlM_cons, List.foldlM_nil, Option.toList_some]
    unfold read
    rw [List.getElem?_eq_getElem (by omega)]
    rfl

theorem forArr_eq {T S : Type} (arr : List T) (size : Int) (h : size ≤ arr.length) (body : S → T → Out S) (s : S) :
    forArr arr size body s = (arr.take size.toNat).foldlM body s :=
  range_take arr body _ (by omega) s

theorem forArr_nonpos {T S : Type} (arr : List T) {size : Int} (h : size ≤ 0) (body : S → T → Out S) (s : S) :
    forArr arr size body s = .ok s := by
  unfold forArr
  rw [show size.toNat = 0 by omega]
  rfl

theorem forArr_ub {T S : Type} (arr : List T) (size : Int) (h : (arr.length : Int) < size) (body : S → T → Out S)
    (hb : ∀ s x, (∃ s', body s x = .ok s') ∨ body s x = .ub) (s : S) : forArr arr size body s = .ub := by
  unfold forArr
  obtain ⟨k, hk⟩ : ∃ k, size.toNat = arr.length + 1 + k := ⟨size.toNat - arr.length - 1, by omega⟩
  rw [hk, List.range_add, List.foldlM_append, List.range_succ, List.foldlM_append, range_take arr body _ le_rfl,
    List.take_length]
  have key : ∀ (xs : List T) (s : S), (∃ s', xs.foldlM body s = .ok s') ∨ xs.foldlM body s = .ub := by
    intro xs
    induction xs with
    | nil => exact fun s => .inl ⟨s, rfl⟩
    | cons x xs ih =>
      intro s
      rw [List.foldlM_cons]
      rcases hb s x with ⟨s', e⟩ | e
      · rw [e, Out.ok_bind]; exact ih s'
      · rw [e]; exact .inr rfl
  rcases key arr s with ⟨s', e⟩ | e
  · rw [e, Out.ok_bind]
    simp only [List.foldlM_cons, read, List.getElem?_length]
    rfl
  · rw [e]
    rfl

theorem foldlM_ok {T S : Type} (f : S → T → S) (xs : List T) (s : S) :
    xs.foldlM (fun s x => Out.ok (f s x)) s = .ok (xs.foldl f s) := by
  induction xs generalizing s with
  | nil => rfl
  | cons x xs ih => rw [List.foldlM_cons, Out.ok_bind, ih, List.foldl_cons]

/-! ### Exact arithmetic -/

theorem foldl_add' {T : Type} (f : T → ℚ) (xs : List T) (s : ℚ) :
    xs.foldl (fun s x => s + f x) s = s + (xs.map f).sum := by
  induction xs generalizing s with
  | nil => simp
  | cons x xs ih => simp only [List.foldl_cons, ih, List.map_cons, List.sum_cons]; ring

theorem sumD_eq (xs : List ℚ) : sumCont (D := ℚ) .double xs = .ok xs.sum := by
  unfold sumCont Elem.double
  rw [foldlM_ok (fun a b => a + b)]
  have := foldl_add' id xs 0
  simpa using this

theorem squares_eq {T : Type} (e : Elem T ℚ) (m : ℚ) (xs : List T) :
    squaresCont e m xs = ((xs.map e.conv).map fun x => (x - m) ^ 2).sum := by
  have := foldl_add' (fun x => (e.conv x - m) ^ 2) xs 0
  simpa [squaresCont, pow_two, Function.comp_def] using this

theorem len_ne {α : Type u} {xs : List α} (h : xs ≠ []) : (xs.length : ℚ) ≠ 0 := by
  have := List.length_pos_iff.mpr h
  exact_mod_cast this.ne'

theorem meanCont_eq {T : Type} (e : Elem T ℚ) (xs : List T) (s : T) (hs : sumCont e xs = .ok s)
    (hc : e.conv s = (xs.map e.conv).sum) : meanCont e xs = .ok (Spec.mean (xs.map e.conv)) := by
  unfold meanCont
  rw [hs, Out.ok_bind, hc, Spec.mean]
  simp

theorem varianceCont_eq {T : Type} (e : Elem T ℚ) (xs : List T)
    (hm : meanCont e xs = .ok (Spec.mean (xs.map e.conv))) :
    varianceCont e xs = .ok (Spec.variance (xs.map e.conv)) := by
  unfold varianceCont
  rw [hm, Out.ok_bind, squares_eq]
  simp [Spec.variance, Spec.deviation]

theorem sampleVarianceCont_eq {T : Type} (e : Elem T ℚ) (u : Bool) (xs : List T) (h : 2 ≤ xs.length)
    (hl : xs.length < 2 ^ 64) (hm : meanCont e xs = .ok (Spec.mean (xs.map e.conv))) :
    sampleVarianceCont e u xs = .ok (Spec.sampleVariance (xs.map e.conv)) := by
  unfold sampleVarianceCont
  have : sizeMinusOne u xs.length = (xs.length : Int) - 1 := by
    unfold sizeMinusOne
    split_ifs
    · rw [Int.emod_eq_of_lt (by omega) (by omega)]
    · rfl
  rw [hm, Out.ok_bind, squares_eq, this]
  simp [Spec.sampleVariance, Spec.deviation]

/-! ### Arrays are like containers of their first elements -/

theorem sumArr_eq {T D : Type} (e : Elem T D) (arr : List T) {size : Int} (h : size ≤ arr.length) :
    sumArr e arr size = sumCont e (arr.take size.toNat) := forArr_eq arr size h _ _

theorem sumFnArr_eq {T A D : Type} (e : Elem T D) (fn : A → T) (arr : List A) {size : Int} (h : size ≤ arr.length) :
    sumFnArr e fn arr size = sumFnCont e fn (arr.take size.toNat) := forArr_eq arr size h _ _

theorem sumFnCont_eq {T A D : Type} (e : Elem T D) (fn : A → T) (xs : List A) :
    sumFnCont e fn xs = sumCont e (xs.map fn) := by
  unfold sumFnCont sumCont
  rw [List.foldlM_map]

theorem len_take {T : Type} (arr : List T) {size : Int} (h0 : 0 ≤ size) (h : size ≤ arr.length) :
    ((arr.take size.toNat).length : Int) = size := by
  rw [List.length_take]; omega

section
variable {D : Type} [Add D] [Sub D] [Mul D] [Div D] [IntCast D]

omit [Add D] [Sub D] [Mul D] in
theorem meanArr_eq {T : Type} (e : Elem T D) (arr : List T) {size : Int} (h0 : 0 ≤ size) (h : size ≤ arr.length) :
    meanArr e arr size = meanCont e (arr.take size.toNat) := by
  unfold meanArr meanCont
  rw [sumArr_eq e arr h, len_take arr h0 h]

theorem varianceDouble_eq (arr : List D) {size : Int} (h0 : 0 ≤ size) (h : size ≤ arr.length) :
    varianceDouble arr size = varianceCont .double (arr.take size.toNat) := by
  unfold varianceDouble varianceCont
  rw [meanArr_eq _ arr h0 h, len_take arr h0 h]
  congr 1
  funext m
  rw [forArr_eq arr size h, foldlM_ok (fun (s : D) x => s + (x - m) * (x - m)), Out.ok_bind]
  rfl

theorem sampleVarianceArr_eq {T : Type} (e : Elem T D) (arr : List T) {size : Int} (h0 : 0 ≤ size)
    (h : size ≤ arr.length) (hi : size ≤ INT_MAX) (u : Bool) (hu : u = true → 1 ≤ size) :
    sampleVarianceArr e arr size = sampleVarianceCont e u (arr.take size.toNat) := by
  unfold sampleVarianceArr sampleVarianceCont
  have hI : INT_MAX = 2147483647 := rfl
  have hm : INT_MIN = -2147483648 := rfl
  rw [meanArr_eq _ arr h0 h]
  congr 1
  funext m
  rw [forArr_eq arr size h, foldlM_ok (fun (s : D) x => s + (e.conv x - m) * (e.conv x - m)), Out.ok_bind,
    int_ok (by unfold IsInt; omega), Out.ok_bind]
  have : sizeMinusOne u (arr.take size.toNat).length = size - 1 := by
    unfold sizeMinusOne
    rw [len_take arr h0 h]
    split_ifs with hh
    · have := hu hh
      rw [Int.emod_eq_of_lt (by omega) (by omega)]
    · rfl
  rw [this]
  rfl

/-- `variance(const int*, int)` in terms of the first elements -/
theorem varianceInt_eq (arr : List Int) {size : Int} (h0 : 0 ≤ size) (h : size ≤ arr.length) :
    varianceInt arr size = (do
      let s ← (arr.take size.toNat).foldlM (fun (s : D) x => do
        let p ← int (x * x)
        Out.ok (s + (p : D))) ((0 : Int) : D)
      let means ← meanCont (D := D) .int (arr.take size.toNat)
      Out.ok (s / (size : D) - means * means)) := by
  unfold varianceInt
  rw [meanArr_eq _ arr h0 h, forArr_eq arr size h]

end

/-! ### Integers -/

theorem sumI_defined (xs : List Int) (s : Int)
    (h : ∀ k, k ≤ xs.length → IsInt (s + (xs.take k).sum)) :
    xs.foldlM (fun s x => int (s + x)) s = .ok (s + xs.sum) := by
  induction xs generalizing s with
  | nil => simp
  | cons x xs ih =>
    rw [List.foldlM_cons]
    have h1 := h 1 (by simp)
    simp only [List.take_succ_cons, List.take_zero, List.sum_cons, List.sum_nil, add_zero] at h1
    rw [int_ok h1, Out.ok_bind, ih]
    · rw [List.sum_cons]; congr 1; ring
    · intro k hk
      have := h (k + 1) (by simpa using hk)
      rw [List.take_succ_cons, List.sum_cons] at this
      rw [show s + x + (xs.take k).sum = s + (x + (xs.take k).sum) by ring]
      exact this

theorem sumI_eq {D : Type} [IntCast D] (xs : List Int) (h : PartialSums xs) :
    sumCont (D := D) .int xs = .ok xs.sum := by
  have := sumI_defined xs 0 (by intro k hk; rw [zero_add]; exact h k hk)
  unfold sumCont Elem.int
  rw [this, zero_add]

theorem sum_cast (xs : List Int) : ((xs.sum : Int) : ℚ) = (cast xs).sum := by
  induction xs with
  | nil => simp
  | cons x xs ih =>
    simp only [cast, List.map_cons, List.sum_cons] at *
    rw [Int.cast_add, ih]

theorem cast_ne {xs : List Int} (h : xs ≠ []) : cast xs ≠ [] := by simpa [cast] using h

theorem meanI_eq (xs : List Int) (hs : PartialSums xs) :
    meanCont (D := ℚ) .int xs = .ok (Spec.mean (cast xs)) :=
  meanCont_eq .int xs _ (sumI_eq xs hs) (sum_cast xs)

theorem squares_defined (xs : List Int) (h : ∀ x ∈ xs, IsInt (x * x)) (s : ℚ) :
    xs.foldlM (fun (s : ℚ) x => (do
      let p ← int (x * x)
      Out.ok (s + (p : ℚ)) : Out ℚ)) s = .ok (s + ((cast xs).map fun x => x ^ 2).sum) := by
  induction xs generalizing s with
  | nil => simp [cast]
  | cons x xs ih =>
    rw [List.foldlM_cons, int_ok (h x (by simp)), Out.ok_bind, Out.ok_bind,
      ih (fun y hy => h y (by simp [hy]))]
    simp only [cast, List.map_cons, List.sum_cons]
    push_cast
    congr 1; ring

theorem deviation_expand (xs : List ℚ) (m : ℚ) :
    (xs.map fun x => (x - m) ^ 2).sum =
      (xs.map fun x => x ^ 2).sum - 2 * m * xs.sum + xs.length * m ^ 2 := by
  induction xs with
  | nil => simp
  | cons x xs ih =>
    simp only [List.map_cons, List.sum_cons, ih, List.length_cons]
    push_cast; ring

theorem variance_shift (xs : List ℚ) (h : xs ≠ []) :
    Spec.variance xs = (xs.map fun x => x ^ 2).sum / xs.length - Spec.mean xs * Spec.mean xs := by
  unfold Spec.variance Spec.deviation
  rw [deviation_expand]
  have := len_ne h
  unfold Spec.mean
  field_simp
  ring

theorem varianceI_eq (arr : List Int) {size : Int} (h0 : 0 < size) (h : size ≤ arr.length)
    (hs : PartialSums (arr.take size.toNat)) (hq : ∀ x ∈ arr.take size.toNat, IsInt (x * x)) :
    varianceInt (D := ℚ) arr size = .ok (Spec.variance (cast (arr.take size.toNat))) := by
  have hne : arr.take size.toNat ≠ [] := by
    intro hh
    have := len_take arr h0.le h
    rw [hh] at this
    simp at this
    omega
  rw [varianceInt_eq arr h0.le h, squares_defined _ hq, Out.ok_bind, meanI_eq _ hs, Out.ok_bind]
  congr 1
  rw [variance_shift _ (cast_ne hne)]
  have := len_take arr h0.le h
  have h2 : ((cast (arr.take size.toNat)).length : ℚ) = (size : ℚ) := by
    rw [show (cast (arr.take size.toNat)).length = (arr.take size.toNat).length by simp [cast]]
    exact_mod_cast this
  rw [h2]
  simp

theorem sum_sq_nonneg (xs : List ℚ) (m : ℚ) : 0 ≤ (xs.map fun x => (x - m) ^ 2).sum := by
  induction xs with
  | nil => simp
  | cons x xs ih => simp only [List.map_cons, List.sum_cons]; positivity

theorem sum_sq_zero (xs : List ℚ) (m : ℚ) (h : (xs.map fun x => (x - m) ^ 2).sum = 0) :
    ∀ x ∈ xs, x = m := by
  induction xs with
  | nil => simp
  | cons x xs ih =>
    simp only [List.map_cons, List.sum_cons] at h
    have h1 := sum_sq_nonneg xs m
    have h2 := sq_nonneg (x - m)
    intro y hy
    rcases List.mem_cons.mp hy with rfl | hy
    · have : (y - m) ^ 2 = 0 := by linarith
      have := pow_eq_zero_iff (two_ne_zero) |>.mp this
      linarith
    · exact ih (by linarith) y hy

theorem variance_nonneg (xs : List ℚ) : 0 ≤ Spec.variance xs := by
  unfold Spec.variance Spec.deviation
  have := sum_sq_nonneg xs (Spec.mean xs)
  positivity

theorem variance_zero (xs : List ℚ) (h : xs ≠ []) :
    Spec.variance xs = 0 ↔ ∀ x ∈ xs, ∀ y ∈ xs, x = y := by
  unfold Spec.variance Spec.deviation
  rw [div_eq_zero_iff, or_iff_left (len_ne h)]
  constructor
  · intro h x hx y hy
    rw [sum_sq_zero _ _ h x hx, sum_sq_zero _ _ h y hy]
  · intro he
    obtain ⟨c, hc⟩ : ∃ c, ∀ x ∈ xs, x = c := by
      cases xs with
      | nil => exact absurd rfl h
      | cons c xs => exact ⟨c, fun x hx => he x hx c (by simp)⟩
    have hrep : xs = List.replicate xs.length c := List.eq_replicate_iff.mpr ⟨rfl, hc⟩
    have hm : Spec.mean xs = c := by
      unfold Spec.mean
      have : xs.sum = xs.length * c := by
        conv_lhs => rw [hrep]
        simp
      rw [this]
      have := len_ne h
      field_simp
    rw [hm]
    apply List.sum_eq_zero
    intro y hy
    obtain ⟨x, hx, rfl⟩ := List.mem_map.mp hy
    rw [hc x hx]; simp

end Stats
