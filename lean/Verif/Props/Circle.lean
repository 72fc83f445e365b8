import Verif.Model.Circle
import Verif.Props.Geometry

/-! # C98, C99 for objects made by the constructors -/

namespace Geo.Props

/-- **C99, every constructor (exact arithmetic).**  `Circle(O, r)` has the points `O + r (cos t, sin t)`; without a
centre the centre is the origin, without a radius the radius is 1; and the functions of the radius are those of a
circle of that radius.  (Missing for C99: the exact value of pi.) -/
theorem C99_constructors_partial (O : Point 2 ℝ) (r t : ℝ) (n : Nat) :
    (((Circle.ofOR O r).getPoint Fp.real t).run n).1 = ![O 0 + r * Real.cos t, O 1 + r * Real.sin t] ∧
    (((Circle.ofO O).getPoint Fp.real t).run n).1 = ![O 0 + Real.cos t, O 1 + Real.sin t] ∧
    (((Circle.ofR r).getPoint Fp.real t).run n).1 = ![r * Real.cos t, r * Real.sin t] ∧
    ((Circle.unit.getPoint Fp.real t).run n).1 = ![Real.cos t, Real.sin t] ∧
    (Circle.ofOR O r).getPerimeter Fp.real = (Circle.ofR r).getPerimeter Fp.real ∧
    (Circle.ofR r).getPerimeter Fp.real = r * (Circle.ofO O).getPerimeter Fp.real ∧
    (Circle.ofOR O r).getArea Fp.real = (Circle.ofR r).getArea Fp.real ∧
    (Circle.ofR r).getArea Fp.real = r ^ 2 * (Circle.unit : Circle ℝ).getArea Fp.real ∧
    (Circle.ofO O).getArea Fp.real = (Circle.unit : Circle ℝ).getArea Fp.real ∧
    2 * (Circle.unit : Circle ℝ).getArea Fp.real = (Circle.unit : Circle ℝ).getPerimeter Fp.real := by
  have run (c : Circle ℝ) : ((c.getPoint Fp.real t).run n).1 =
      fun i => c.O i + (![c.r * Real.cos t, c.r * Real.sin t] : Point 2 ℝ) i := rfl
  have hA (c : Circle ℝ) : c.getArea Fp.real = 31415926 / 10 ^ 7 * c.r * c.r := rfl
  have hP (c : Circle ℝ) : c.getPerimeter Fp.real = ((2 : Int) : ℝ) * (31415926 / 10 ^ 7) * c.r := rfl
  have o (i : Fin 2) : (mk2 ((0 : Int) : ℝ) ((0 : Int) : ℝ)) i = 0 := by fin_cases i <;> simp [mk2]
  refine ⟨?_, ?_, ?_, ?_, rfl, ?_, rfl, ?_, ?_, ?_⟩
  · rw [run]; funext i; fin_cases i <;> rfl
  · rw [run]; funext i; fin_cases i <;> simp [Circle.ofO]
  · rw [run]; funext i; fin_cases i <;> simp [Circle.ofR, mk2]
  · rw [run]; funext i; fin_cases i <;> simp [Circle.unit, mk2]
  · rw [hP, hP]; simp [Circle.ofR, Circle.ofO]; ring
  · rw [hA, hA]; simp [Circle.ofR, Circle.unit]; ring
  · rw [hA, hA]; simp [Circle.ofO, Circle.unit]
  · rw [hA, hP]; simp [Circle.unit]

example : (((Circle.ofR (3 : ℝ)).getPoint Fp.real 0).run 5).1 = ![3, 0] := by
  rw [(C99_constructors_partial ![0, 0] 3 0 5).2.2.1]
  simp

/-- **C98, the default point and the length of a line (exact arithmetic).**  `Point()` is the origin: it has length 0, is at
distance `len` from every point and changes nothing when added or subtracted; `p - p` is `Point()`.  `Line(A, v).len()` is
the distance from `A` to the other end of the segment. -/
theorem C98_zero_partial (N : Nat) (p : Point N ℝ) (A v : Point 2 ℝ) (n : Nat) :
    len Fp.real (zero : Point N ℝ) = 0 ∧ len Fp.real p = Spec.dist p zero ∧
    ((add p zero).run n).1 = p ∧ ((sub p zero).run n).1 = p ∧ ((sub p p).run n).1 = zero ∧
    (⟨A, v⟩ : Line ℝ).len Fp.real = Spec.dist ((add A v).run n).1 A := by
  have z : (zero : Point N ℝ) = 0 := by funext i; simp [zero]
  have e : (⟨A, v⟩ : Line ℝ).len Fp.real = Spec.dist v 0 := (C98_vector_partial 2 v v).2.1
  have a1 : ((add p zero).run n).1 = fun i => p i + (zero : Point N ℝ) i := rfl
  have a2 : ((sub p zero).run n).1 = fun i => p i - (zero : Point N ℝ) i := rfl
  have a3 : ((sub p p).run n).1 = fun i => p i - p i := rfl
  have a4 : ((add A v).run n).1 = fun i => A i + v i := rfl
  refine ⟨?_, ?_, ?_, ?_, ?_, ?_⟩
  · rw [(C98_vector_partial N zero p).2.1, z]
    simp [Spec.dist]
  · rw [z]; exact (C98_vector_partial N p p).2.1
  · rw [a1, z]; simp
  · rw [a2, z]; simp
  · rw [a3, z]; funext i; simp
  · rw [e, a4]; simp [Spec.dist]

example : (⟨![1, 1], ![3, 4]⟩ : Line ℝ).len Fp.real = 5 := by
  rw [(C98_zero_partial 2 0 ![1, 1] ![3, 4] 0).2.2.2.2.2]
  show Spec.dist (fun i => (![1, 1] : Point 2 ℝ) i + (![3, 4] : Point 2 ℝ) i) ![1, 1] = 5
  simp [Spec.dist, Fin.sum_univ_two]
  rw [show (3 : ℝ) ^ 2 + 4 ^ 2 = 5 ^ 2 by norm_num]
  exact Real.sqrt_sq (by norm_num)

end Geo.Props
