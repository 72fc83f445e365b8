import Verif.Proof.SegmentTreeMul
import Verif.Props.SegmentTree

/-! # C124: `SegmentTree<int>` and overflow -/

namespace SegmentTree
open Cpp Spec

/-- The property C124: calls in range on a `SegmentTree<int>` (of a size next to a power of two, see C34) are defined as long
as, after each call, all elements and all sums of intervals fit an `int`. -/
def C124 : Prop :=
  ∀ (fuel : Nat) (v : List Int) (ops : List (Op Int)), v ≠ [] → v.length ≤ fuel →
    (∃ k : Nat, v.length + 1 = 2 ^ (k + 1) ∨ v.length = 2 ^ k ∨ v.length = 2 ^ k + 1) →
    (∀ op ∈ ops, Op.InRange v.length op) → (∀ k, AllFit (values v (ops.take k))) → ∃ t, runI fuel v ops = .ok t

/-- C124 is false.  One element -2^31, to which 2^30 is added three times: the element runs through -2^31, -2^30, 0, 2^30, which
all fit; but the children that a leaf does not have collect the summands, and the third time their sum overflows. -/
theorem C124_refuted : ¬ C124 := by
  intro h
  obtain ⟨t, e⟩ := h 1 [-2147483648] [.add 0 0 1073741824, .add 0 0 1073741824, .add 0 0 1073741824] (by simp) (by simp)
    ⟨0, by simp⟩ (by simp [Op.InRange, InRange]) (by
      intro k a b hr
      obtain ⟨r1, r2, r3⟩ := hr
      have hl : (values ([-2147483648] : List Int) (([.add 0 0 1073741824, .add 0 0 1073741824, .add 0 0 1073741824] :
        List (Op Int)).take k)).length = 1 := by
        rcases k with _ | _ | _ | _ <;> simp [values, apply]
      rw [hl] at r3
      have ea : a = 0 := by omega
      have eb : b = 0 := by omega
      subst ea eb
      rcases k with _ | _ | _ | _ <;> simp [values, apply, slice, IsInt, INT_MIN, INT_MAX])
  have w : (match runI 1 [-2147483648] [.add 0 0 1073741824, .add 0 0 1073741824, .add 0 0 1073741824] with
    | .ub => true | _ => false) = true := by decide +kernel
  rw [e] at w
  cases w

/-- C124, partial (1): without updates the condition is exactly right: on arrays whose interval sums all fit (of any size), the
constructor and any number of queries are defined and return maximum, minimum and sum. -/
theorem C124_static_partial {fuel : Nat} {v : List Int} (hv : v ≠ []) (hf : v.length ≤ fuel) (hfit : AllFit v) :
    ∃ t, buildI fuel v = .ok t ∧ ∀ a b, InRange v.length a b →
      (∃ x, queryMaxI fuel t a b = .ok (t, x) ∧ IsMax v a b x) ∧
      (∃ x, queryMinI fuel t a b = .ok (t, x) ∧ IsMin v a b x) ∧
      (∃ x, querySumI fuel t a b = .ok (t, x) ∧ IsSum v a b x) := by
  obtain ⟨t, e, st, c, ps, gd⟩ := build_ok fuel v hv hf
  have hl : 1 ≤ v.length := by cases v with | nil => exact absurd rfl hv | cons => simp
  refine ⟨_, (buildI_eq hv hf hfit).trans e, fun a b hr => ⟨?_, ?_, ?_⟩⟩
  · obtain ⟨t', x, e, _, _, S, r⟩ := query_st agg_max hr hf (.inr ⟨room_root hl, c⟩) st
    refine ⟨x, ?_, isMax_of hr (r (ps _) (gd _ _ _))⟩
    have q := queryI_static (C := fun x y => .ok (max x y)) agg_max hv hf st c (ps _) (gd _) hr (fun _ _ _ _ _ _ _ _ _ _ _ => rfl)
    rw [queryMaxI, q, e, S c]
  · obtain ⟨t', x, e, _, _, S, r⟩ := query_st agg_min hr hf (.inr ⟨room_root hl, c⟩) st
    refine ⟨x, ?_, isMin_of hr (r (ps _) (gd _ _ _))⟩
    have q := queryI_static (C := fun x y => .ok (min x y)) agg_min hv hf st c (ps _) (gd _) hr (fun _ _ _ _ _ _ _ _ _ _ _ => rfl)
    rw [queryMinI, q, e, S c]
  · obtain ⟨t', x, e, _, _, S, r⟩ := query_st agg_sum hr hf (.inr ⟨room_root hl, c⟩) st
    refine ⟨x, ?_, isSum_of hr (r (ps _) (gd _ _ _))⟩
    have q := queryI_static (C := fun x y => int (x + y)) agg_sum hv hf st c (ps _) (gd _) hr
      (fun a' m b' x y h1 h2 h3 h4 q1 q2 => by
        have := agg_sum.join a' m b' _ _ _ h2 h3 q1 q2
        refine int_ok ?_
        rw [this]
        exact sums_of_allFit hfit a' b' (by have := hr.1; omega) (by omega) (by have := hr.2.2; omega))
    rw [querySumI, q, e, S c]

example : ([2147483647, -2147483648, 7, -5, 1, 4] : List Int) ≠ [] ∧ AllFit [2147483647, -2147483648, 7, -5, 1, 4] := by
  refine ⟨by simp, fun a b hr => ?_⟩
  obtain ⟨h1, h2, h3⟩ := hr
  have h3' : b < 6 := h3
  obtain ⟨a, rfl⟩ := Int.eq_ofNat_of_zero_le h1
  obtain ⟨b, rfl⟩ := Int.eq_ofNat_of_zero_le (h1.trans h2)
  have k : ∀ a b : Fin 6, a ≤ b → IsInt (slice ([2147483647, -2147483648, 7, -5, 1, 4] : List Int) (a.val : Int) (b.val : Int)).sum := by
    decide +kernel
  exact k ⟨a, by omega⟩ ⟨b, by omega⟩ (by simp; omega)

/-- C124, partial (2): whatever is defined is right.  If a history is defined, a defined query returns what it should: sums (and,
with nonnegative factors, maxima and minima) over intervals that every update contains or avoids, and the element itself for
single positions. -/
theorem C124_sound_partial {fuel : Nat} {v : List Int} {ops : List (Op Int)} {t : Seg Int} (hv : v ≠ []) (hf : v.length ≤ fuel)
    (hn : ∃ k : Nat, v.length + 1 = 2 ^ (k + 1) ∨ v.length = 2 ^ k ∨ v.length = 2 ^ k + 1)
    (hr : ∀ op ∈ ops, Op.InRange v.length op) (hrun : runI fuel v ops = .ok t) :
    (∀ a b, InRange v.length a b → (∀ op ∈ ops, Op.Respects a b op) →
      (∀ t' x, querySumI fuel t a b = .ok (t', x) → IsSum (values v ops) a b x) ∧
      ((∀ op ∈ ops, Op.NonNeg op) →
        (∀ t' x, queryMaxI fuel t a b = .ok (t', x) → IsMax (values v ops) a b x) ∧
        (∀ t' x, queryMinI fuel t a b = .ok (t', x) → IsMin (values v ops) a b x))) ∧
    (∀ a : Int, 0 ≤ a → a < v.length → ∀ t' x, queryMaxI fuel t a a = .ok (t', x) ∨ queryMinI fuel t a a = .ok (t', x) ∨
      querySumI fuel t a a = .ok (t', x) → (values v ops)[a.toNat]? = some x) := by
  have hrun' := (ref_run fuel v ops).ok hrun
  refine ⟨fun a b hab hresp => ?_, fun a ha ha' => ?_⟩
  · obtain ⟨t0, e, ⟨s1, x1, e1, q1⟩, q⟩ := C33_partial hv hf hn hr hab hresp
    rw [hrun'] at e
    injection e with e
    subst e
    refine ⟨fun t' x h => ?_, fun hnn => ?_⟩
    · have := (ref_sum fuel t a b).ok h
      rw [e1] at this
      injection this with this
      injection this with _ this
      rw [← this]; exact q1
    · obtain ⟨⟨s2, x2, e2, q2⟩, ⟨s3, x3, e3, q3⟩⟩ := q hnn
      refine ⟨fun t' x h => ?_, fun t' x h => ?_⟩
      · have := (ref_max fuel t a b).ok h
        rw [e2] at this
        injection this with this
        injection this with _ this
        rw [← this]; exact q2
      · have := (ref_min fuel t a b).ok h
        rw [e3] at this
        injection this with this
        injection this with _ this
        rw [← this]; exact q3
  · obtain ⟨t0, y, e, ey, ⟨s1, e1⟩, ⟨s2, e2⟩, ⟨s3, e3⟩⟩ := C75_point hv hf hn hr ha ha'
    rw [hrun'] at e
    injection e with e
    subst e
    rintro t' x (h | h | h)
    · have := (ref_max fuel t a a).ok h
      rw [e1] at this; injection this with this; injection this with _ this; rw [← this]; exact ey
    · have := (ref_min fuel t a a).ok h
      rw [e2] at this; injection this with this; injection this with _ this; rw [← this]; exact ey
    · have := (ref_sum fuel t a a).ok h
      rw [e3] at this; injection this with this; injection this with _ this; rw [← this]; exact ey

example : (do
    let t ← runI 5 [5, 1, 4, 2, 3] [.add 0 4 2, .mul 1 3 3, .max 0 4, .add 2 3 1, .mul 4 4 7, .sum 1 2]
    let (_, x) ← querySumI 5 t 2 3
    Out.ok (x, values [5, 1, 4, 2, 3] [.add 0 4 2, .mul 1 3 3, .max 0 4, .add 2 3 1, .mul 4 4 (7 : Int), .sum 1 2])) =
    .ok (32, [7, 9, 19, 13, 35]) := by decide +kernel

/-- C124, partial (3): a history of additions and queries is defined, and so are all queries after it, if the number of elements
times (largest absolute value + sum of the absolute values of all summands) fits an `int`.
Missing for C124: histories with larger numbers (some overflow); for multiplications see `C124_updates_partial`. -/
theorem C124_adds_partial {fuel : Nat} {v : List Int} {ops : List (Op Int)} {V : Int} (hv : v ≠ []) (hf : v.length ≤ fuel)
    (hn : ∃ k : Nat, v.length + 1 = 2 ^ (k + 1) ∨ v.length = 2 ^ k ∨ v.length = 2 ^ k + 1)
    (hr : ∀ op ∈ ops, Op.InRange v.length op) (hm : ∀ op ∈ ops, Op.NoMul op) (hV : ∀ x ∈ v, |x| ≤ V)
    (hM : (v.length : Int) * (V + (ops.map Op.weight).sum) ≤ INT_MAX) :
    ∃ t, runI fuel v ops = .ok t ∧ ∀ a b, InRange v.length a b →
      (∃ t' x, queryMaxI fuel t a b = .ok (t', x)) ∧ (∃ t' x, queryMinI fuel t a b = .ok (t', x)) ∧
      (∃ t' x, querySumI fuel t a b = .ok (t', x)) := by
  have hF := roomy_fits hn
  obtain ⟨t, e, I⟩ := runI_inv hv hf hF ops hr hm hV hM
  have hV0 : 0 ≤ V := by
    obtain ⟨x, w, rfl⟩ := List.exists_cons_of_ne_nil hv
    have := hV x (by simp); have := abs_nonneg x; omega
  refine ⟨_, e, fun a b hab => ?_⟩
  obtain ⟨⟨t1, x1, e1, -⟩, ⟨t2, x2, e2, -⟩, ⟨t3, x3, e3, -⟩⟩ := queries_inv hV0 hM hf hF I hab
  exact ⟨⟨_, _, e1⟩, ⟨_, _, e2⟩, ⟨_, _, e3⟩⟩

example : let v : List Int := [100000000, -7, 5]
    let ops : List (Op Int) := [.add 0 2 200000000, .max 0 1, .add 1 1 (-300000000), .sum 0 2]
    (∀ op ∈ ops, Op.InRange v.length op) ∧ (∀ op ∈ ops, Op.NoMul op) ∧ (∀ x ∈ v, |x| ≤ 100000000) ∧
      (v.length : Int) * (100000000 + (ops.map Op.weight).sum) ≤ INT_MAX := by
  refine ⟨?_, ?_, ?_, ?_⟩
  · simp [Op.InRange, InRange]
  · simp [Op.NoMul]
  · simp
  · simp [Op.weight, INT_MAX]

/-- C124, partial (4): a history of additions, multiplications and queries is defined, and so are all queries after it, if the
number of elements times the product of all factors (in absolute value, at least 1 each) times (largest absolute value + sum of
the absolute values of all summands) fits an `int`.
Missing for C124: histories with larger numbers (some overflow). -/
theorem C124_updates_partial {fuel : Nat} {v : List Int} {ops : List (Op Int)} {V : Int} (hv : v ≠ []) (hf : v.length ≤ fuel)
    (hn : ∃ k : Nat, v.length + 1 = 2 ^ (k + 1) ∨ v.length = 2 ^ k ∨ v.length = 2 ^ k + 1)
    (hr : ∀ op ∈ ops, Op.InRange v.length op) (hV1 : 1 ≤ V) (hV : ∀ x ∈ v, |x| ≤ V)
    (hM : (v.length : Int) * ((ops.map Op.factor).prod * (V + (ops.map Op.weight).sum)) ≤ INT_MAX) :
    ∃ t, runI fuel v ops = .ok t ∧ ∀ a b, InRange v.length a b →
      (∃ t' x, queryMaxI fuel t a b = .ok (t', x)) ∧ (∃ t' x, queryMinI fuel t a b = .ok (t', x)) ∧
      (∃ t' x, querySumI fuel t a b = .ok (t', x)) := by
  have hF := roomy_fits hn
  obtain ⟨t, e, I⟩ := Mul.runI_inv hv hf hF ops hr hV1 hV hM
  refine ⟨_, e, fun a b hab => ?_⟩
  obtain ⟨⟨t1, x1, e1, -⟩, ⟨t2, x2, e2, -⟩, ⟨t3, x3, e3, -⟩⟩ := Mul.queries_inv hM hf hF I hab
  exact ⟨⟨_, _, e1⟩, ⟨_, _, e2⟩, ⟨_, _, e3⟩⟩

example : let v : List Int := [10000, -7, 5]
    let ops : List (Op Int) := [.add 0 2 20000, .mul 0 1 (-100), .max 0 1, .add 1 1 (-30000), .mul 1 2 50, .mul 0 2 0, .sum 0 2]
    (∀ op ∈ ops, Op.InRange v.length op) ∧ (∀ x ∈ v, |x| ≤ 10000) ∧
      (v.length : Int) * ((ops.map Op.factor).prod * (10000 + (ops.map Op.weight).sum)) ≤ INT_MAX := by
  refine ⟨?_, ?_, ?_⟩
  · simp [Op.InRange, InRange]
  · simp
  · simp [Op.factor, Op.weight, INT_MAX]

/-- The bound on the factors is needed: four elements 1, multiplied by 2 twenty-nine times, have the sum 2^31. -/
theorem C124_factor_needed : ∃ (v : List Int) (ops : List (Op Int)), v.length = 4 ∧ (∀ x ∈ v, |x| ≤ 1) ∧
    (∀ op ∈ ops, Op.InRange v.length op ∧ ∃ a b, op = .mul a b 2) ∧ ops.length = 29 ∧
    ∃ t, runI 4 v ops = .ok t ∧ querySumI 4 t 0 3 = .ub := by
  refine ⟨[1, 1, 1, 1], List.replicate 29 (.mul 0 3 2), rfl, by simp, ?_, by simp, ?_⟩
  · intro op h
    rw [List.mem_replicate] at h
    rw [h.2]
    exact ⟨by simp [Op.InRange, InRange], 0, 3, rfl⟩
  · have w : (match runI 4 [1, 1, 1, 1] (List.replicate 29 (.mul 0 3 2)) with
      | .ok t => (match querySumI 4 t 0 3 with | .ub => true | _ => false)
      | _ => false) = true := by decide +kernel
    revert w
    cases runI 4 [1, 1, 1, 1] (List.replicate 29 (.mul 0 3 2)) with
    | ok t =>
      intro w
      refine ⟨t, rfl, ?_⟩
      dsimp only at w
      revert w
      cases querySumI 4 t 0 3 <;> simp
    | _ => simp

end SegmentTree
