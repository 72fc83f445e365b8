import Verif.Proof.KeyOrder
import Verif.Props.Fraction
import Verif.Props.BigNum
import Verif.Props.Geometry
import Verif.Props.Graph
import Mathlib.Order.PiLex

/-! # The comparisons of fractions, big numbers, points and vertices agree with the order of a key -/

namespace Cont.By.Props
open Cpp
open Cont.Spec (SmallFrac)

theorem agrees_fraction : Agrees Fraction.lt SmallFrac Fraction.Spec.val := by
  intro a b ⟨ca, a1, a2, a3⟩ ⟨cb, b1, b2, b3⟩
  have key : ∀ x y : Int, -46340 ≤ x → x ≤ 46340 → -46340 ≤ y → y ≤ 46340 → IsInt (x * y) := by
    intro x y h1 h2 h3 h4
    have : |x * y| ≤ 46340 * 46340 := by
      rw [abs_mul]
      exact mul_le_mul (abs_le.2 ⟨h1, h2⟩) (abs_le.2 ⟨h3, h4⟩) (abs_nonneg _) (by norm_num)
    rw [abs_le] at this
    exact ⟨by unfold INT_MIN; omega, by unfold INT_MAX; omega⟩
  have da := ca.den_pos
  have db := cb.den_pos
  exact (Fraction.C16_order a b ca cb (key _ _ a1 a2 (by omega) b3) (key _ _ (by omega) a3 b1 b2)).1

theorem small_inj (a b : Fraction.Frac) (ha : SmallFrac a) (hb : SmallFrac b)
    (h : Fraction.Spec.val a = Fraction.Spec.val b) : a = b := Fraction.val_inj ha.1 hb.1 h

theorem small_half : SmallFrac ⟨1, 2⟩ ∧ SmallFrac ⟨-2, 3⟩ ∧ SmallFrac ⟨46340, 46339⟩ := by
  refine ⟨⟨⟨by decide, by decide, by decide, by decide⟩, by decide, by decide, by decide⟩,
    ⟨⟨by decide, by decide, by decide, by decide⟩, by decide, by decide, by decide⟩,
    ⟨⟨by decide, by decide, by decide, by decide⟩, by decide, by decide, by decide⟩⟩

theorem agrees_bigNum (N : Nat) :
    Agrees BigNum.lt (fun b => BigNum.Spec.Valid N b ∧ BigNum.Spec.PosZero b) BigNum.Spec.val :=
  fun a b ha hb => (BigNum.C23_compare N a b ha.1 hb.1 ha.2 hb.2).1

theorem agrees_point (N : Nat) : Agrees (ltPoint (N := N)) (fun p => ∀ i, p i ≠ .nan)
    (fun p => toLex fun i => Geo.key (p i)) := by
  intro a b ha hb
  have h := (Geo.Props.C65_order_partial N a b a ha hb ha).1
  unfold ltPoint
  congr 1
  rw [Bool.eq_iff_iff, h, decide_eq_true_eq]
  constructor
  · rintro ⟨i, h1, h2⟩
    exact ⟨i, fun j hj => by show Geo.key (a j) = Geo.key (b j); rw [h2 j hj], (Geo.key_lt _ _ (ha i) (hb i)).1 h1⟩
  · rintro ⟨i, h1, h2⟩
    exact ⟨i, (Geo.key_lt _ _ (ha i) (hb i)).2 h2, fun j hj => (Geo.key_inj _ _ (ha j) (hb j)).1 (h1 j hj)⟩

theorem point_inj (N : Nat) (p q : Geo.Point N Dbl) (hp : ∀ i, p i ≠ .nan) (hq : ∀ i, q i ≠ .nan)
    (h : (toLex fun i => Geo.key (p i)) = toLex fun i => Geo.key (q i)) : p = q := by
  funext i
  exact (Geo.key_inj _ _ (hp i) (hq i)).1 (congrFun (toLex.injective h) i)

end Cont.By.Props
