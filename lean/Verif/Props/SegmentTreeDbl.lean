import Verif.Proof.SegmentTreeDbl3
import Verif.Props.SegmentTreeInt

/-! # C138: `SegmentTree<double>` -/

set_option exponentiation.threshold 2000

namespace SegmentTree
open Cpp Spec

/-- C138 (1): the sum of an interval.  If the elements at `a..b` are finite doubles whose absolute values sum to at most `2^1023`,
`querySum(a, b)` returns a finite double that differs from the exact sum by at most `(⌈log2 n⌉ + 1) / 2^53` times the sum of the
absolute values (`n` = number of elements of the tree), whatever the other elements are (infinities and NaN included).  The query
changes nothing. -/
theorem C138_sum {fuel : Nat} {v : List Dbl} (hv : v ≠ []) (hf : v.length ≤ fuel) (hn : v.length ≤ 2 ^ 31) :
    ∃ t, buildD fuel v = .ok t ∧ ∀ (a b : Int) (qs : List ℚ), InRange v.length a b → slice v a b = qs.map Dbl.fin →
      (∀ q ∈ qs, Rand.Spec.IsDouble q) → (qs.map abs).sum ≤ 2 ^ 1023 →
      ∃ z : ℚ, querySumD fuel t a b = .ok (t, .fin z) ∧
        |z - qs.sum| ≤ (Nat.clog 2 v.length + 1) / 2 ^ 53 * (qs.map abs).sum := by
  obtain ⟨t, e, hC, hH⟩ := buildD_ok fuel v hv hf
  refine ⟨_, e, fun a b qs hr hs hq hB => ?_⟩
  have hl : qs.length = (b - a + 1).toNat := by
    have := congrArg List.length hs
    obtain ⟨r1, r2, r3⟩ := hr
    unfold slice at this
    rw [List.length_take, List.length_drop, List.length_map] at this
    omega
  have h0 := hr
  obtain ⟨r1, r2, r3⟩ := h0
  have key := sum_ok (v := v) (a := a) (b := b) (S := fun i => (qs.take (i - a).toNat).sum)
    (B := fun i => ((qs.map abs).take (i - a).toNat).sum) (N := v.length) (t := t) (fuel := fuel) hr hn hf hC hH ?_ ?_ ?_
  · obtain ⟨x, e, z, rfl, hz, herr⟩ := key
    refine ⟨z, e, ?_⟩
    dsimp only at herr
    rw [show (a - a).toNat = 0 by omega, List.take_zero, List.take_zero, List.sum_nil,
      List.take_of_length_le (by omega), List.take_of_length_le (by rw [List.length_map]; omega), sub_zero, sub_zero] at herr
    have hd : depth 0 ((v.length : Int) - 1) = Nat.clog 2 v.length := by
      unfold depth
      congr 1
      omega
    have hd31 := depth_le (l := 0) (r := (v.length : Int) - 1) le_rfl (by omega)
    rw [hd] at herr hd31
    have h1 := pow_u_le' (c := Nat.clog 2 v.length) (by omega)
    have h2 : 0 ≤ (qs.map abs).sum := (abs_nonneg _).trans (abs_sum_le qs)
    refine herr.trans (mul_le_mul_of_nonneg_right (h1.trans (le_of_eq ?_)) h2)
    unfold Stats.u
    ring
  · intro p h1 h2
    obtain ⟨k1, k2⟩ := slice_prefix hr hs p h1 h2
    have : (qs.take (p + 1 - a).toNat).sum - (qs.take (p - a).toNat).sum = qs[(p - a).toNat] := by
      rw [take_sum_sub (by omega), show (p + 1 - a).toNat - (p - a).toNat = 1 by omega, List.drop_eq_getElem_cons k1,
        List.take_succ_cons, List.take_zero, List.sum_singleton]
    rw [this]
    exact ⟨k2, Rand.fl_of_isDouble (hq _ (List.getElem_mem k1))⟩
  · intro l r h1 h2
    rw [take_sum_sub (by omega), take_sum_sub (by omega), ← List.map_drop, ← List.map_take]
    exact abs_sum_le _
  · rw [show (a - a).toNat = 0 by omega, List.take_zero, List.sum_nil, sub_zero,
      List.take_of_length_le (by rw [List.length_map]; omega)]
    exact hB

/-- Three doubles and an infinity: the exact sum of the first three is `2^53 + 3/2`; the tree returns `2^53`, off by less than `3 / 2^53` times the sum. -/
example : let v : List Dbl := [.fin (2 ^ 53), .fin 1, .fin (1 / 2), .inf false]
    v ≠ [] ∧ InRange v.length 0 2 ∧ slice v 0 2 = [(2 : ℚ) ^ 53, 1, 1 / 2].map Dbl.fin ∧
      ((([(2 : ℚ) ^ 53, 1, 1 / 2] : List ℚ).map abs).sum ≤ 2 ^ 1023) ∧
      (do let t ← buildD 4 v; let (_, x) ← querySumD 4 t 0 2; Out.ok x) = .ok (.fin (2 ^ 53)) := by
  refine ⟨by simp, by simp [InRange], by decide +kernel, ?_, by decide +kernel⟩
  norm_num

example : ∀ q ∈ ([(2 : ℚ) ^ 53, 1, 1 / 2] : List ℚ), Rand.Spec.IsDouble q := by
  intro q hq
  simp only [List.mem_cons, List.not_mem_nil, or_false] at hq
  rcases hq with rfl | rfl | rfl
  · exact ⟨1, 53, by norm_num, by norm_num, by norm_num, by norm_num⟩
  · exact ⟨1, 0, by norm_num, by norm_num, by norm_num, by norm_num⟩
  · exact ⟨1, -1, by norm_num, by norm_num, by norm_num, by norm_num⟩

/-- C138 (2): the extremes of an interval without NaN are exact, infinities included: `queryMax` (`queryMin`) returns an element of
the interval that is at least (at most) every element of it.  The other elements may be anything.  The query changes nothing. -/
theorem C138_extremes {fuel : Nat} {v : List Dbl} (hv : v ≠ []) (hf : v.length ≤ fuel) :
    ∃ t, buildD fuel v = .ok t ∧ ∀ a b : Int, InRange v.length a b → Dbl.nan ∉ slice v a b →
      (∃ x, queryMaxD fuel t a b = .ok (t, x) ∧ x ∈ slice v a b ∧ ∀ y ∈ slice v a b, y ≤ x) ∧
      (∃ x, queryMinD fuel t a b = .ok (t, x) ∧ x ∈ slice v a b ∧ ∀ y ∈ slice v a b, x ≤ y) := by
  obtain ⟨t, e, hC, hH⟩ := buildD_ok fuel v hv hf
  refine ⟨_, e, fun a b hr hn => ?_⟩
  obtain ⟨⟨x, e1, h1, h2⟩, y, e2, h3, h4⟩ := ext_ok (v := v) (a := a) (b := b) (N := v.length) (t := t) (fuel := fuel) hr hf hC hH
    (fun p h1 h2 h3 => hn ((mem_sliceD hr _).2 ⟨p, h1, h2, h3⟩))
  refine ⟨⟨x, e1, (mem_sliceD hr x).2 h1, fun z hz => ?_⟩, y, e2, (mem_sliceD hr y).2 h3, fun z hz => ?_⟩
  · obtain ⟨p, p1, p2, p3⟩ := (mem_sliceD hr z).1 hz
    exact h2 p z p1 p2 p3
  · obtain ⟨p, p1, p2, p3⟩ := (mem_sliceD hr z).1 hz
    exact h4 p z p1 p2 p3

example : let v : List Dbl := [.fin (1 / 3), .inf true, .fin 7, .nan, .inf false]
    v ≠ [] ∧ InRange v.length 0 2 ∧ Dbl.nan ∉ slice v 0 2 ∧
      (do let t ← buildD 5 v; let (_, x) ← queryMaxD 5 t 0 2; let (_, y) ← queryMinD 5 t 0 2; Out.ok (x, y)) =
        .ok (.fin 7, .inf true) := by
  refine ⟨by simp, by simp [InRange], by decide +kernel, by decide +kernel⟩

/-- Why (2) excludes NaN: with a NaN in the interval the result depends on where it stands; a NaN in front hides the maximum, one at
the end goes unnoticed. -/
theorem C138_nan :
    (do let t ← buildD 2 [Dbl.nan, .fin 1]; let (_, x) ← queryMaxD 2 t 0 1; Out.ok x) = .ok Dbl.nan ∧
    (do let t ← buildD 2 [Dbl.fin 1, .nan]; let (_, x) ← queryMaxD 2 t 0 1; Out.ok x) = .ok (Dbl.fin 1) := by
  decide +kernel

/-- C138 (3): whole numbers.  If a history of calls on a `SegmentTree<int>` is free of overflow, the same history on a
`SegmentTree<double>` is defined, and each query that is free of overflow on the `SegmentTree<int>` returns the same number.  (So
C124 tells which results are right, and no rounding occurs.) -/
theorem C138_whole {fuel : Nat} {v : List Int} {ops : List (Op Int)} {t : Seg Int} (hn : v.length ≤ 2 ^ 31)
    (hrun : runI fuel v ops = .ok t) :
    ∃ s, runD fuel (v.map fun x : Int => Dbl.fin x) (ops.map (Op.map fun x : Int => Dbl.fin x)) = .ok s ∧ ∀ (a b : Int) (t' : Seg Int) (x : Int),
      (queryMaxI fuel t a b = .ok (t', x) → ∃ s', queryMaxD fuel s a b = .ok (s', .fin x)) ∧
      (queryMinI fuel t a b = .ok (t', x) → ∃ s', queryMinD fuel s a b = .ok (s', .fin x)) ∧
      (querySumI fuel t a b = .ok (t', x) → ∃ s', querySumD fuel s a b = .ok (s', .fin x)) := by
  obtain ⟨e, hs⟩ := run_cast hn hrun
  have hn' : t.size ≤ 2 ^ 31 := by omega
  exact ⟨_, e, fun a b t' x => ⟨fun h => ⟨_, (max_cast hn' h).1⟩, fun h => ⟨_, (min_cast hn' h).1⟩, fun h => ⟨_, (sum_cast hn' h).1⟩⟩⟩

example : (do
    let s ← runD 5 ([5, 1, 4, 2, 3].map fun x : Int => Dbl.fin x)
      (([.add 0 4 2, .mul 1 3 3, .max 0 4, .add 2 3 1, .mul 4 4 7, .sum 1 2] : List (Op Int)).map (Op.map fun x : Int => Dbl.fin x))
    let (_, x) ← querySumD 5 s 2 3
    Out.ok x) = .ok (.fin 32) := by decide +kernel

end SegmentTree
