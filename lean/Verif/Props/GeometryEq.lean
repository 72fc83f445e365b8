import Verif.Props.Geometry

/-! # C65 in every dimension, around every point -/

namespace Geo.Props
open Cpp

/-- **C65, refuted around every point (exact arithmetic, any dimension but 0).**  Every point has a neighbour to which it is
`==` and `<`, and a point `==` to this neighbour to which it is not `==`. -/
theorem C65_eq_all_refuted (N : Nat) (p : Point (N + 1) ℝ) : ∃ q r : Point (N + 1) ℝ,
    eq Fp.real p q = true ∧ lt Fp.real p q = true ∧ eq Fp.real q r = true ∧ eq Fp.real p r = false := by
  refine ⟨fun i => p i + 1 / 10 ^ 6, fun i => p i + 2 / 10 ^ 6, ?_, ?_, ?_, ?_⟩
  · rw [(C65_eq_partial _ _ _).1]
    intro i
    rw [abs_le]
    constructor <;> norm_num
  · rw [(C65_order_real _ _ _ p).1]
    exact ⟨0, by norm_num, fun j hj => absurd hj (by simp)⟩
  · rw [(C65_eq_partial _ _ _).1]
    intro i
    rw [abs_le]
    constructor <;> norm_num
  · rw [← Bool.not_eq_true, (C65_eq_partial _ _ _).1]
    intro h
    have := (abs_le.1 (h 0)).1
    norm_num at this

example : ∃ q r : Point 2 ℝ, eq Fp.real ![1, 2] q = true ∧ lt Fp.real ![1, 2] q = true ∧ eq Fp.real q r = true ∧
    eq Fp.real ![1, 2] r = false := C65_eq_all_refuted 1 _

/-- **C65, refuted (binary64, any dimension but 0).**  A point whose first coordinate is NaN is neither `<`, `<=`, `>` nor
`>=` any point, itself included; with all coordinates NaN it is `==` to it nevertheless (`C65_nan_refuted`). -/
theorem C65_incomparable_refuted (N : Nat) (p q : Point (N + 1) Dbl) (h : p 0 = .nan ∨ q 0 = .nan) :
    lt Fp.dbl p q = false ∧ le Fp.dbl p q = false ∧ gt Fp.dbl p q = false ∧ ge Fp.dbl p q = false := by
  have hn : Fp.dbl.ne (p 0) (q 0) = true := by
    rcases h with h | h <;> rw [h]
    · cases q 0 <;> rfl
    · cases p 0 <;> rfl
  have h1 : ¬ p 0 < q 0 := by
    show ¬ Dbl.lt _ _ = true
    rcases h with h | h <;> rw [h]
    · cases q 0 <;> simp [Dbl.lt]
    · cases p 0 <;> simp [Dbl.lt]
  have h2 : ¬ q 0 < p 0 := by
    show ¬ Dbl.lt _ _ = true
    rcases h with h | h <;> rw [h]
    · cases q 0 <;> simp [Dbl.lt]
    · cases p 0 <;> simp [Dbl.lt]
  unfold lt le gt ge
  rw [List.finRange_succ]
  unfold cmpLoop
  rw [hn]
  simp [h1, h2]

example : ge Fp.dbl (![.nan, .fin 1] : Point 2 Dbl) ![.nan, .fin 1] = false :=
  (C65_incomparable_refuted 1 _ _ (.inl rfl)).2.2.2

end Geo.Props
