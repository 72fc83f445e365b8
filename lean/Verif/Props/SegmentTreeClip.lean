import Verif.Proof.SegmentTreeClip
import Mathlib.Algebra.Order.Ring.Int

/-! # SegmentTree with any interval: property C147 -/

namespace SegmentTree
open Cpp Spec

variable {α : Type} [CommRing α] [LinearOrder α] [IsStrictOrderedRing α]

/-- The property C147: calls with any interval are defined, an interval counts as its positions in the vector, and an update
without positions changes nothing. -/
def C147 (α : Type) [CommRing α] [LinearOrder α] : Prop :=
  ∀ (fuel : Nat) (v : List α) (lv rv : Int), v ≠ [] → 4 * v.length < fuel →
    ∃ t, build fuel v = .ok t ∧ (∃ y, queryMax fuel t lv rv = .ok y) ∧ ∃ t', addInterval fuel t lv rv 1 = .ok t'

/-- **C147, what holds.**  On trees of the sizes of C34, after any history of updates and queries whose intervals contain a
position of the vector (they may reach over both ends), and of updates of reversed intervals (which change nothing): a query for
an interval that contains a position returns sum, maximum and minimum of the elements at its positions in the vector, with the
conditions of C33 on updates.  (Missing: intervals without positions, see below; other sizes.) -/
theorem C147_history_partial {fuel : Nat} {v : List α} {ops : List (Op α)} {a b : Int} (hv : v ≠ []) (hf : v.length ≤ fuel)
    (hn : ∃ k : Nat, v.length + 1 = 2 ^ (k + 1) ∨ v.length = 2 ^ k ∨ v.length = 2 ^ k + 1)
    (hr : ∀ op ∈ ops, Op.Fine v.length op) (hab : Touches v.length a b)
    (hresp : ∀ op ∈ ops, Op.Leaves (max a 0) (min b ((v.length : Int) - 1)) op) :
    ∃ t, run fuel v ops = .ok t ∧
      (∃ t' x, querySum fuel t a b = .ok (t', x) ∧ IsSum (values v ops) (max a 0) (min b ((v.length : Int) - 1)) x) ∧
      ((∀ op ∈ ops, Op.NonNeg op) →
        (∃ t' x, queryMax fuel t a b = .ok (t', x) ∧ IsMax (values v ops) (max a 0) (min b ((v.length : Int) - 1)) x) ∧
        (∃ t' x, queryMin fuel t a b = .ok (t', x) ∧ IsMin (values v ops) (max a 0) (min b ((v.length : Int) - 1)) x)) := by
  have hF := roomy_fits hn
  have hl1 : 1 ≤ v.length := by cases v with | nil => exact absurd rfl hv | cons => simp
  obtain ⟨t0, e0, st0, -, ps0, gd0⟩ := build_ok fuel v hv hf
  obtain ⟨t, e, hl, st, q⟩ := runFrom_fine ops hv hf hF st0 hr
  obtain ⟨h1, h2, h3⟩ := hab
  have hr' : InRange (values v ops).length (max a 0) (min b ((v.length : Int) - 1)) := by
    rw [hl]; refine ⟨?_, ?_, ?_⟩ <;> omega
  have hb' : min b ((v.length : Int) - 1) < v.length := by omega
  have hS : Safe (4 * (values v ops).length) t 0 (((values v ops).length : Int) - 1) 1 := by rw [hl]; exact .inl hF
  have cl : ∀ (sel : Node α → α) (comb : α → α → α), query sel comb a b fuel 0 ((v.length : Int) - 1) 1 ⟨v.length, t⟩ =
      query sel comb (max a 0) (min b ((v.length : Int) - 1)) fuel 0 ((v.length : Int) - 1) 1 ⟨v.length, t⟩ := fun sel comb =>
    query_clip (n := v.length) h1 _ _ _ _ _ (le_refl 0) (by omega) (by omega) (by omega) h2
  refine ⟨⟨v.length, t⟩, by rw [run, e0, Out.ok_bind, e], ?_, fun hnn => ⟨?_, ?_⟩⟩
  · obtain ⟨q1, q2⟩ := q False False.elim (ps0 _)
    obtain ⟨t', x, e, _, _, _, r⟩ := query_st agg_sum hr' (fuel := fuel) (by rw [hl]; exact hf) hS st
    rw [hl] at e r
    exact ⟨_, x, by rw [querySum]; exact (cl _ _).trans e,
      isSum_of hr' (r q1 (q2 _ _ (le_max_right _ _) hb' hresp (gd0 _ _ _)))⟩
  · obtain ⟨q1, q2⟩ := q True (fun _ => hnn) (ps0 _)
    obtain ⟨t', x, e, _, _, _, r⟩ := query_st agg_max hr' (fuel := fuel) (by rw [hl]; exact hf) hS st
    rw [hl] at e r
    exact ⟨_, x, by rw [queryMax]; exact (cl _ _).trans e,
      isMax_of hr' (r q1 (q2 _ _ (le_max_right _ _) hb' hresp (gd0 _ _ _)))⟩
  · obtain ⟨q1, q2⟩ := q True (fun _ => hnn) (ps0 _)
    obtain ⟨t', x, e, _, _, _, r⟩ := query_st agg_min hr' (fuel := fuel) (by rw [hl]; exact hf) hS st
    rw [hl] at e r
    exact ⟨_, x, by rw [queryMin]; exact (cl _ _).trans e,
      isMin_of hr' (r q1 (q2 _ _ (le_max_right _ _) hb' hresp (gd0 _ _ _)))⟩

example : ∃ t, run 5 ([5, 1, 4, 2, 3] : List Int) [.add (-7) 9 2, .mul 3 1 6, .mul 3 80 3, .max (-1) 2] = .ok t ∧
    ∃ t' x, querySum 5 t 3 12 = .ok (t', x) ∧
      IsSum (values [5, 1, 4, 2, 3] [.add (-7) 9 2, .mul 3 1 6, .mul 3 80 (3 : Int), .max (-1) 2]) 3 4 x := by
  obtain ⟨t, e, h, -⟩ := C147_history_partial (fuel := 5) (v := ([5, 1, 4, 2, 3] : List Int)) (a := 3) (b := 12)
    (ops := [.add (-7) 9 2, .mul 3 1 6, .mul 3 80 3, .max (-1) 2]) (by simp) (by simp) ⟨2, by simp⟩
    (by simp [Op.Fine, Touches, Reversed]) (by simp [Touches]) (by simp [Op.Leaves])
  exact ⟨t, e, h⟩

example : (do
    let t ← run 5 ([5, 1, 4, 2, 3] : List Int) [.add (-7) 9 2, .mul 3 1 6, .mul 3 80 3, .max (-1) 2]
    let (_, x) ← querySum 5 t 3 12
    Out.ok x) = .ok 27 := by decide +kernel

omit [LinearOrder α] [IsStrictOrderedRing α] in
/-- **C147 is refuted for queries without positions.**  On every tree, whatever happened to it, a query for an interval that ends
before it begins, ends before position 0, or begins later than right behind the last position, is undefined. -/
theorem C147_query_refuted {sel : Node α → α} {comb : α → α → α} {fuel : Nat} (t : Seg α) (lv rv : Int) (hn : 1 ≤ t.size)
    (hf : 4 * t.size < fuel) (h : rv < lv ∨ rv < 0 ∨ (t.size : Int) < lv) :
    query sel comb lv rv fuel 0 ((t.size : Int) - 1) 1 t = .ub := query_empty hn hf h

omit [LinearOrder α] [IsStrictOrderedRing α] in
/-- **C147 is refuted for some updates without positions.**  On every tree an update is undefined if the interval lies before
position 0 (`rv` is negative and `lv` is not positive), or behind the last one (`lv` is more than the size and `rv` at least). -/
theorem C147_update_refuted {fuel : Nat} (t : Seg α) (lv rv : Int) (x : α) (hn : 1 ≤ t.size)
    (hf : 4 * t.size < fuel) (h : (lv ≤ 0 ∧ rv < 0) ∨ ((t.size : Int) < lv ∧ (t.size : Int) ≤ rv)) :
    addInterval fuel t lv rv x = .ub ∧ mulInterval fuel t lv rv x = .ub := by
  rcases h with ⟨h1, h2⟩ | ⟨h1, h2⟩
  · exact ⟨change_lost_left h1 h2 fuel _ _ _ rfl (le_refl 1) (by omega) (by omega) (by omega),
      change_lost_left h1 h2 fuel _ _ _ rfl (le_refl 1) (by omega) (by omega) (by omega)⟩
  · exact ⟨change_lost_right h1 h2 fuel _ _ _ rfl (le_refl 1) (by omega) (by omega) (by omega),
      change_lost_right h1 h2 fuel _ _ _ rfl (le_refl 1) (by omega) (by omega) (by omega)⟩

example : ∃ t, build 9 ([5, 9] : List Int) = .ok t ∧ queryMax 9 t 1 0 = .ub ∧ addInterval 9 t (-3) (-2) 4 = .ub := by
  obtain ⟨t, e, -⟩ := build_ok 9 ([5, 9] : List Int) (by simp) (by simp)
  exact ⟨_, e, C147_query_refuted (fuel := 9) _ 1 0 (by simp) (by simp) (.inl (by decide)),
    (C147_update_refuted (fuel := 9) _ (-3) (-2) 4 (by simp) (by simp) (.inl ⟨by decide, by decide⟩)).1⟩

/-- **C147 is refuted for the position right behind the last one.**  For the elements 9, 5, 7 the maximum at position 3, which
does not exist, is 9. -/
theorem C147_end_refuted : (do
    let t ← build 9 ([9, 5, 7] : List Int)
    let (_, x) ← queryMax 9 t 3 3
    Out.ok x) = .ok 9 := by decide +kernel

/-- C147 is false. -/
theorem C147_refuted : ¬ C147 Int := by
  intro h
  obtain ⟨t, e, ⟨y, hy⟩, -⟩ := h 9 [5, 9] 1 0 (by simp) (by simp)
  obtain ⟨t', e', -⟩ := build_ok 9 ([5, 9] : List Int) (by simp) (by simp)
  rw [e] at e'
  injection e' with e'
  subst e'
  rw [queryMax, C147_query_refuted (fuel := 9) _ 1 0 (by simp) (by simp) (.inl (by decide))] at hy
  cases hy

end SegmentTree
