import Verif.Spec.SegmentTreeDbl
import Verif.Proof.SegmentTree
import Verif.Proof.StatsDouble
import Mathlib.Data.Nat.Log

/-! # Lemmas about segment trees of doubles: construction and queries -/

namespace SegmentTree
open Cpp

variable {D : Type} [Add D] [Mul D] [IntCast D] [LT D] [DecidableLT D]

/-- Every node of the subtree satisfies `P`. -/
def Hold (P : Int → Int → Node D → Prop) (t : Nat → Node D) (l r : Int) (o : Nat) : Prop :=
  P l r (t o) ∧ (if l < r then Hold P t l ((l + r) / 2) (2 * o) ∧ Hold P t ((l + r) / 2 + 1) r (2 * o + 1) else True)
termination_by (r - l).toNat
decreasing_by all_goals omega

omit [Add D] [Mul D] [IntCast D] [LT D] [DecidableLT D] in
theorem hold_congr {P : Int → Int → Node D → Prop} {t t' : Nat → Node D} : ∀ (l r : Int) (o : Nat), l ≤ r →
    (∀ x, Desc o x → t' x = t x) → Hold P t l r o → Hold P t' l r o := by
  refine seg_ind (P := fun l r o => (∀ x, Desc o x → t' x = t x) → Hold P t l r o → Hold P t' l r o) ?_ ?_
  · intro l o h hG
    rw [Hold, if_neg (by omega)] at hG ⊢
    rw [h o (desc_self o)]; exact hG
  · intro l r o hlr hL hR h hG
    rw [Hold, if_pos hlr] at hG ⊢
    rw [h o (desc_self o)]
    exact ⟨hG.1, hL (fun x hx => h x (desc_of_left hx)) hG.2.1, hR (fun x hx => h x (desc_of_right hx)) hG.2.2⟩

omit [Mul D] [IntCast D] in
theorem initD_ok (v : List D) (P : Int → Int → Node D → Prop)
    (hleaf : ∀ (p : Int) (x : D) (nd : Node D), 0 ≤ p → p < v.length → v[p.toNat]? = some x →
      P p p { nd with mn := x, mx := x, sm := x, hasAdd := false, hasMul := false })
    (hjoin : ∀ (l r : Int) (a b nd : Node D), 0 ≤ l → l < r → r < v.length → P l ((l + r) / 2) a → P ((l + r) / 2 + 1) r b →
      P l r { nd with mn := stdMin a.mn b.mn, mx := stdMax a.mx b.mx, sm := a.sm + b.sm }) (N : Nat) :
    ∀ (l r : Int) (o : Nat), l ≤ r → ∀ (fuel : Nat) (t : Nat → Node D), (r - l).toNat < fuel → 1 ≤ o →
    Room (4 * N) l r o → 0 ≤ l → r < v.length → (∀ x, (t x).hasAdd = false ∧ (t x).hasMul = false) →
    ∃ t', initD v fuel l r o ⟨N, t⟩ = .ok ⟨N, t'⟩ ∧ (∀ x, ¬ Desc o x → t' x = t x) ∧
      (∀ x, (t' x).hasAdd = false ∧ (t' x).hasMul = false) ∧ Hold P t' l r o := by
  refine seg_ind ?_ ?_
  · intro l o fuel t hfu ho hR h0 hr hC
    obtain ⟨fuel, rfl⟩ : ∃ k, fuel = k + 1 := ⟨fuel - 1, by omega⟩
    have hlt : l.toNat < v.length := by omega
    have hx : v[l.toNat]? = some v[l.toNat] := List.getElem?_eq_getElem hlt
    rw [initD, if_pos rfl, elemAt_ok h0 hx, Out.ok_bind, at_ok (t := ⟨N, t⟩) (room_lt hR), Out.ok_bind,
      put_ok _ (room_lt hR)]
    refine ⟨_, rfl, fun x hx => if_neg (fun e : x = o => hx (e ▸ desc_self o)), fun x => ?_, ?_⟩
    · by_cases e : x = o
      · simp [e]
      · simp only [e, if_false]; exact hC x
    · rw [Hold, if_neg (lt_irrefl l)]
      refine ⟨?_, trivial⟩
      rw [if_pos rfl]
      exact hleaf l _ _ h0 hr hx
  · intro l r o hlr hL hRt fuel t hfu ho hR h0 hr hC
    obtain ⟨fuel, rfl⟩ : ∃ k, fuel = k + 1 := ⟨fuel - 1, by omega⟩
    have hRo := room_lt hR
    rw [Room, if_pos hlr] at hR
    rw [initD, if_neg (by omega)]
    dsimp only
    obtain ⟨t1, e1, f1, c1, g1⟩ := hL fuel t (by omega) (by omega) hR.2.1 h0 (by omega) hC
    rw [e1, Out.ok_bind]
    obtain ⟨t2, e2, f2, c2, g2⟩ := hRt fuel t1 (by omega) (by omega) hR.2.2 (by omega) hr c1
    rw [e2, Out.ok_bind, at_ok (t := ⟨N, t2⟩) (room_lt hR.2.1), Out.ok_bind,
      at_ok (t := ⟨N, t2⟩) (room_lt hR.2.2), Out.ok_bind, at_ok (t := ⟨N, t2⟩) hRo, Out.ok_bind, put_ok _ hRo]
    have frL : ∀ x, Desc (2 * o) x → t2 x = t1 x := fun x hx => f2 x fun hx' => desc_disjoint ho hx hx'
    refine ⟨_, rfl, fun x hx => ?_, fun x => ?_, ?_⟩
    · rw [if_neg (fun e : x = o => hx (e ▸ desc_self o))]
      show t2 x = t x
      rw [f2 x fun q => hx (desc_of_right q),
        f1 x fun q => hx (desc_of_left q)]
    · by_cases e : x = o
      · rw [if_pos e]; exact c2 o
      · rw [if_neg e]; exact c2 x
    · rw [Hold, if_pos hlr, if_pos rfl]
      have g1' : Hold P t2 l ((l + r) / 2) (2 * o) := hold_congr _ _ _ (by omega) frL g1
      refine ⟨hjoin l r _ _ _ h0 hlr hr ?_ ?_, hold_congr _ _ _ (by omega) (fun x hx => ?_) g1',
        hold_congr _ _ _ (by omega) (fun x hx => ?_) g2⟩
      · rw [Hold] at g1'
        exact g1'.1
      · rw [Hold] at g2
        exact g2.1
      · exact if_neg (desc_strict ho (.inl hx)).2
      · exact if_neg (desc_strict ho (.inr hx)).2

omit [LT D] [DecidableLT D] in
/-- `update` does nothing without flags -/
theorem updateD_clean {t : Seg D} {o : Nat} {l r : Int} (h : o < 4 * t.size)
    (hc : (t.node o).hasAdd = false ∧ (t.node o).hasMul = false) : updateD t o l r = .ok t := by
  unfold updateD
  rw [at_ok h, Out.ok_bind, hc.2]
  simp only [Bool.false_eq_true, if_false, Out.ok_bind]
  rw [at_ok h, Out.ok_bind, hc.1]
  simp

omit [LT D] [DecidableLT D] in
theorem queryD_ok {P : Int → Int → Node D → Prop} {R : Int → Int → D → Prop} {sel : Node D → D} {comb : D → D → D} {a b : Int}
    {N : Nat} {t : Nat → Node D} (hC : ∀ x, (t x).hasAdd = false ∧ (t x).hasMul = false)
    (hcov : ∀ (l r : Int) (nd : Node D), l ≤ r → a ≤ l → r ≤ b → P l r nd → R l r (sel nd))
    (hleft : ∀ (l r : Int) (x : D), l < r → a ≤ (l + r) / 2 → b ≤ (l + r) / 2 → l ≤ b → R l ((l + r) / 2) x → R l r x)
    (hright : ∀ (l r : Int) (x : D), l < r → (l + r) / 2 < a → a ≤ r → R ((l + r) / 2 + 1) r x → R l r x)
    (hboth : ∀ (l r : Int) (x y : D), l < r → a ≤ (l + r) / 2 → (l + r) / 2 < b → R l ((l + r) / 2) x → R ((l + r) / 2 + 1) r y →
      R l r (comb x y)) (hab : a ≤ b) :
    ∀ (l r : Int) (o : Nat), l ≤ r → ∀ (fuel : Nat), (r - l).toNat < fuel → Room (4 * N) l r o → a ≤ r → l ≤ b →
    Hold P t l r o → ∃ x, queryD sel comb a b fuel l r o ⟨N, t⟩ = .ok (⟨N, t⟩, x) ∧ R l r x := by
  refine seg_ind ?_ ?_
  · intro l o fuel hf hR h1 h2 hH
    obtain ⟨fuel, rfl⟩ : ∃ k, fuel = k + 1 := ⟨fuel - 1, by omega⟩
    rw [queryD, updateD_clean (t := ⟨N, t⟩) (room_lt hR) (hC o), Out.ok_bind, if_pos ⟨h1, h2⟩,
      at_ok (t := ⟨N, t⟩) (room_lt hR), Out.ok_bind]
    rw [Hold] at hH
    exact ⟨_, rfl, hcov l l _ le_rfl h1 h2 hH.1⟩
  · intro l r o hlr hL hRt fuel hf hR h1 h2 hH
    obtain ⟨fuel, rfl⟩ : ∃ k, fuel = k + 1 := ⟨fuel - 1, by omega⟩
    rw [queryD, updateD_clean (t := ⟨N, t⟩) (room_lt hR) (hC o), Out.ok_bind]
    have hRo := room_lt hR
    rw [Room, if_pos hlr] at hR
    rw [Hold, if_pos hlr] at hH
    by_cases hc : a ≤ l ∧ b ≥ r
    · rw [if_pos hc, at_ok (t := ⟨N, t⟩) hRo, Out.ok_bind]
      exact ⟨_, rfl, hcov l r _ hlr.le hc.1 hc.2 hH.1⟩
    · rw [if_neg hc]
      dsimp only
      by_cases c1 : b ≤ (l + r) / 2
      · rw [if_pos c1]
        obtain ⟨x, e, hx⟩ := hL fuel (by omega) hR.2.1 (by omega) h2 hH.2.1
        exact ⟨x, e, hleft l r x hlr (by omega) c1 h2 hx⟩
      · rw [if_neg c1]
        by_cases c2 : a > (l + r) / 2
        · rw [if_pos c2]
          obtain ⟨x, e, hx⟩ := hRt fuel (by omega) hR.2.2 h1 (by omega) hH.2.2
          exact ⟨x, e, hright l r x hlr c2 h1 hx⟩
        · rw [if_neg c2]
          obtain ⟨x, e, hx⟩ := hL fuel (by omega) hR.2.1 (by omega) h2 hH.2.1
          obtain ⟨y, e', hy⟩ := hRt fuel (by omega) hR.2.2 h1 (by omega) hH.2.2
          rw [e, Out.ok_bind]
          dsimp only
          rw [e', Out.ok_bind]
          exact ⟨_, rfl, hboth l r x y hlr (by omega) (by omega) hx hy⟩

omit [Mul D] in
theorem buildD_ok (fuel : Nat) (v : List D) (hv : v ≠ []) (hf : v.length ≤ fuel) :
    ∃ t, buildD fuel v = .ok ⟨v.length, t⟩ ∧ (∀ x, (t x).hasAdd = false ∧ (t x).hasMul = false) ∧
      ∀ P : Int → Int → Node D → Prop,
        (∀ (p : Int) (x : D) (nd : Node D), 0 ≤ p → p < v.length → v[p.toNat]? = some x →
          P p p { nd with mn := x, mx := x, sm := x, hasAdd := false, hasMul := false }) →
        (∀ (l r : Int) (a b nd : Node D), 0 ≤ l → l < r → r < v.length → P l ((l + r) / 2) a → P ((l + r) / 2 + 1) r b →
          P l r { nd with mn := stdMin a.mn b.mn, mx := stdMax a.mx b.mx, sm := a.sm + b.sm }) →
        Hold P t 0 ((v.length : Int) - 1) 1 := by
  have hl : 1 ≤ v.length := by cases v with | nil => exact absurd rfl hv | cons => simp
  have key := fun P h1 h2 => initD_ok v P h1 h2 v.length 0 ((v.length : Int) - 1) 1 (by omega) fuel
    (fun _ => ⟨v.headD ((0 : Int) : D), v.headD ((0 : Int) : D), v.headD ((0 : Int) : D), v.headD ((0 : Int) : D),
      v.headD ((0 : Int) : D), false, false⟩) (by omega) (le_refl 1) (room_root hl) (le_refl 0) (by omega) (fun x => ⟨rfl, rfl⟩)
  obtain ⟨t, e, -, c, -⟩ := key (fun _ _ _ => True) (fun _ _ _ _ _ _ => trivial) (fun _ _ _ _ _ _ _ _ _ _ => trivial)
  refine ⟨t, e, c, fun P h1 h2 => ?_⟩
  obtain ⟨t', e', -, -, h⟩ := key P h1 h2
  rw [e] at e'
  injection e' with e'
  injection e' with _ e'
  subst e'
  exact h

end SegmentTree
