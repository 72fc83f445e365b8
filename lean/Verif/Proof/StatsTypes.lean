import Verif.Model.StatsTypes
import Verif.Spec.StatsTypes
import Verif.Proof.Stats
import Verif.Proof.FactTypes

/-! # Helper lemmas for sums of any integer type -/

namespace Stats
open Cpp GcdTypes FactTypes.Spec
open FactTypes (store conv_in conv_eq conv_dvd conv_zero store_in store_ub store_wrap)

theorem small_add {t : ITy} {a b : Int} (ha : t.In a) (hb : t.In b) : ITy.i32.In (a + b) ∨ ¬ (t ≠ .u32 ∧ t ≠ .u64 ∧ Wraps t) := by
  revert ha hb
  cases t <;> simp [ITy.In, ITy.min, ITy.max, ITy.bits, ITy.signed, Wraps] <;> omega

theorem store_add {t : ITy} (hw : Wraps t) {a b : Int} (ha : t.In a) (hb : t.In b) : store t (a + b) = .ok (t.conv (a + b)) := by
  apply store_wrap hw
  rcases small_add ha hb with h | h
  · exact .inl h
  · right; tauto

theorem conv_add_left (t : ITy) (x y : Int) : t.conv (t.conv x + y) = t.conv (x + y) := by
  apply conv_eq
  have e : t.conv x + y - (x + y) = t.conv x - x := by ring
  rw [e]; exact conv_dvd t x

theorem fold_wraps {t : ITy} (hw : Wraps t) (xs : List Int) (hv : Spec.Values t xs) (s : Int) :
    xs.foldlM (fun a b => store t (a + b)) (t.conv s) = .ok (t.conv (s + xs.sum)) := by
  induction xs generalizing s with
  | nil => simp
  | cons x xs ih =>
    have hx : t.In x := hv x (by simp)
    rw [List.foldlM_cons, store_add hw (conv_in t s) hx, Out.ok_bind, conv_add_left,
      ih (fun y hy => hv y (by simp [hy])), List.sum_cons, add_assoc]

theorem sum_wraps {D : Type} [IntCast D] {t : ITy} (hw : Wraps t) (xs : List Int) (hv : Spec.Values t xs) :
    sumCont (D := D) (.ofType t) xs = .ok (t.conv xs.sum) := by
  have := fold_wraps hw xs hv 0
  rw [conv_zero, zero_add] at this
  exact this

theorem fold_fits {t : ITy} (xs : List Int) (s : Int) (h : ∀ k, k ≤ xs.length → t.In (s + (xs.take k).sum)) :
    xs.foldlM (fun a b => store t (a + b)) s = .ok (s + xs.sum) := by
  induction xs generalizing s with
  | nil => simp
  | cons x xs ih =>
    rw [List.foldlM_cons]
    have h1 := h 1 (by simp)
    simp only [List.take_succ_cons, List.take_zero, List.sum_cons, List.sum_nil, add_zero] at h1
    rw [store_in h1, Out.ok_bind, ih]
    · rw [List.sum_cons]; congr 1; ring
    · intro k hk
      have := h (k + 1) (by simpa using hk)
      rw [List.take_succ_cons, List.sum_cons] at this
      rw [show s + x + (xs.take k).sum = s + (x + (xs.take k).sum) by ring]
      exact this

theorem fold_ub {t : ITy} (hp : t.promote = t) (hs : t.signed = true) (xs : List Int) (s : Int) (h0 : t.In s)
    (h : ¬ ∀ k, k ≤ xs.length → t.In (s + (xs.take k).sum)) : xs.foldlM (fun a b => store t (a + b)) s = .ub := by
  induction xs generalizing s with
  | nil => exact absurd (fun k hk => by simpa using h0) h
  | cons x xs ih =>
    rw [List.foldlM_cons]
    by_cases hx : t.In (s + x)
    · rw [store_in hx, Out.ok_bind]
      refine ih _ hx fun hc => h fun k hk => ?_
      cases k with
      | zero => simpa using h0
      | succ k =>
        have := hc k (by simpa using hk)
        rw [List.take_succ_cons, List.sum_cons]
        rwa [← add_assoc]
    · rw [store_ub t hp hs hx]; rfl

theorem sum_fits {D : Type} [IntCast D] {t : ITy} (xs : List Int) (h : Spec.SumsFit t xs) :
    sumCont (D := D) (.ofType t) xs = .ok xs.sum := by
  have := fold_fits (t := t) xs 0 (by intro k hk; rw [zero_add]; exact h k hk)
  rw [zero_add] at this
  exact this

theorem sum_overflow {D : Type} [IntCast D] {t : ITy} (hp : t.promote = t) (hs : t.signed = true) (xs : List Int)
    (h : ¬ Spec.SumsFit t xs) : sumCont (D := D) (.ofType t) xs = .ub :=
  fold_ub hp hs xs 0 (in_zero t) (by simpa [Spec.SumsFit] using h)

theorem sum_right {D : Type} [IntCast D] {t : ITy} (xs : List Int) (hv : Spec.Values t xs) (h : Spec.Fits t xs) :
    sumCont (D := D) (.ofType t) xs = .ok xs.sum := by
  by_cases hw : Wraps t
  · rw [sum_wraps hw xs hv, conv_of_in]
    revert h hw; cases t <;> simp [Spec.Fits, Wraps]
  · apply sum_fits
    revert h hw; cases t <;> simp [Spec.Fits, Wraps]

theorem sum_nums (xs : List Int) : ((xs.sum : Int) : ℚ) = (Spec.nums xs).sum := sum_cast xs

theorem mean_right {t : ITy} (xs : List Int) (hv : Spec.Values t xs) (h : Spec.Fits t xs) :
    meanCont (D := ℚ) (.ofType t) xs = .ok (Spec.mean (Spec.nums xs)) :=
  meanCont_eq (.ofType t) xs _ (sum_right xs hv h) (sum_nums xs)

theorem fold_bool (bs : List Bool) (s : Bool) :
    bs.foldlM (Elem.bool (D := ℚ)).add s = .ok (s || bs.any id) := by
  induction bs generalizing s with
  | nil => simp
  | cons b bs ih =>
    have e : (Elem.bool (D := ℚ)).add s b = .ok (s || b) := by cases s <;> cases b <;> decide
    rw [List.foldlM_cons, e, Out.ok_bind, ih, List.any_cons, Bool.or_assoc]; rfl

theorem sum_bool (bs : List Bool) : sumCont (D := ℚ) .bool bs = .ok (bs.any id) := by
  have := fold_bool bs false
  rwa [Bool.false_or] at this

end Stats
