import Verif.Proof.SegmentTree

/-! # C32 – C34, C75: segment trees

`α` is an ordered commutative ring (exact arithmetic).  `fuel` bounds the recursion depth; every theorem holds
for each `fuel` at least the number of elements. -/

namespace SegmentTree
open Cpp Spec

variable {α : Type} [CommRing α] [LinearOrder α] [IsStrictOrderedRing α]

/-- C32: on a tree without updates the three queries return maximum, minimum and sum of the elements, for
every size; and they leave the tree as it is, so this holds for any number of queries. -/
theorem C32_static {fuel : Nat} {v : List α} (hv : v ≠ []) (hf : v.length ≤ fuel) :
    ∃ t, build fuel v = .ok t ∧ ∀ a b, InRange v.length a b →
      (∃ x, queryMax fuel t a b = .ok (t, x) ∧ IsMax v a b x) ∧
      (∃ x, queryMin fuel t a b = .ok (t, x) ∧ IsMin v a b x) ∧
      (∃ x, querySum fuel t a b = .ok (t, x) ∧ IsSum v a b x) := by
  obtain ⟨t, e, st, c, ps, gd⟩ := build_ok fuel v hv hf
  have hl : 1 ≤ v.length := by cases v with | nil => exact absurd rfl hv | cons => simp
  refine ⟨_, e, fun a b hr => ⟨?_, ?_, ?_⟩⟩
  · obtain ⟨t', x, e, _, _, S, r⟩ := query_st agg_max hr hf (.inr ⟨room_root hl, c⟩) st
    exact ⟨x, by rw [queryMax, e, S c], isMax_of hr (r (ps _) (gd _ _ _))⟩
  · obtain ⟨t', x, e, _, _, S, r⟩ := query_st agg_min hr hf (.inr ⟨room_root hl, c⟩) st
    exact ⟨x, by rw [queryMin, e, S c], isMin_of hr (r (ps _) (gd _ _ _))⟩
  · obtain ⟨t', x, e, _, _, S, r⟩ := query_st agg_sum hr hf (.inr ⟨room_root hl, c⟩) st
    exact ⟨x, by rw [querySum, e, S c], isSum_of hr (r (ps _) (gd _ _ _))⟩

example : ([4, 1, 3, 1, 5, 9] : List Int) ≠ [] ∧ InRange ([4, 1, 3, 1, 5, 9] : List Int).length 1 4 :=
  ⟨by simp, by simp [InRange]⟩

example : (do
    let t ← build 6 ([4, 1, 3, 1, 5, 9] : List Int)
    let (t, x) ← queryMax 6 t 1 4
    let (t, y) ← queryMin 6 t 1 4
    let (_, z) ← querySum 6 t 1 4
    Out.ok (x, y, z)) = .ok (5, 1, 10) := by decide +kernel

/-- The property C33: after any history of calls with intervals in range, a query over any interval returns
maximum (minimum, sum) of the current elements. -/
def C33 (α : Type) [CommRing α] [LinearOrder α] : Prop :=
  ∀ (fuel : Nat) (v : List α) (ops : List (Op α)) (a b : Int), v ≠ [] → v.length ≤ fuel →
    (∀ op ∈ ops, Op.InRange v.length op) → InRange v.length a b →
    ∃ t t1 t2 t3 x y z, run fuel v ops = .ok t ∧
      queryMax fuel t a b = .ok (t1, x) ∧ IsMax (values v ops) a b x ∧
      queryMin fuel t a b = .ok (t2, y) ∧ IsMin (values v ops) a b y ∧
      querySum fuel t a b = .ok (t3, z) ∧ IsSum (values v ops) a b z

/-- C33 is false: an update of part of an interval does not reach the values stored for the whole interval.
Elements 0, 1, 2, 3; add 5 to positions 1 and 2; the maximum is 7 but `queryMax(0, 3)` returns 3 (and
`querySum(0, 3)` returns 6 instead of 16). -/
theorem C33_refuted : ¬ C33 Int := by
  intro h
  obtain ⟨t, t1, t2, t3, x, y, z, e, e1, m, -⟩ := h 4 [0, 1, 2, 3] [.add 1 2 5] 0 3 (by simp) (by simp)
    (by simp [Op.InRange, InRange]) (by simp [InRange])
  have w : (do let t ← run 4 ([0, 1, 2, 3] : List Int) [.add 1 2 5]; let (_, x) ← queryMax 4 t 0 3; Out.ok x) = .ok 3 := by
    decide +kernel
  rw [e, Out.ok_bind, e1, Out.ok_bind] at w
  injection w with w
  subst w
  have := m.2 (show (7 : Int) ∈ {y | y ∈ slice (values ([0, 1, 2, 3] : List Int) [.add 1 2 5]) 0 3} by
    simp [values, apply, slice])
  omega

/-- C33, partial: what holds is the claim for intervals that every earlier update contains or avoids, on trees
whose size is next to a power of two (see C34); for maxima and minima the factors must not be negative.
Missing for C33: intervals cut by an update, other sizes, negative factors. -/
theorem C33_partial {fuel : Nat} {v : List α} {ops : List (Op α)} {a b : Int} (hv : v ≠ []) (hf : v.length ≤ fuel)
    (hn : ∃ k : Nat, v.length + 1 = 2 ^ (k + 1) ∨ v.length = 2 ^ k ∨ v.length = 2 ^ k + 1)
    (hr : ∀ op ∈ ops, Op.InRange v.length op) (hab : InRange v.length a b)
    (hresp : ∀ op ∈ ops, Op.Respects a b op) :
    ∃ t, run fuel v ops = .ok t ∧
      (∃ t' x, querySum fuel t a b = .ok (t', x) ∧ IsSum (values v ops) a b x) ∧
      ((∀ op ∈ ops, Op.NonNeg op) →
        (∃ t' x, queryMax fuel t a b = .ok (t', x) ∧ IsMax (values v ops) a b x) ∧
        (∃ t' x, queryMin fuel t a b = .ok (t', x) ∧ IsMin (values v ops) a b x)) := by
  have hF := roomy_fits hn
  obtain ⟨t, e, hl, st, q⟩ := run_ok hv hf hF ops hr
  rw [← hl] at hF hab hf
  refine ⟨_, e, ?_, fun hnn => ⟨?_, ?_⟩⟩
  · obtain ⟨t', x, e, _, _, _, r⟩ := query_st agg_sum hab hf (.inl hF) st
    rw [hl] at e r
    obtain ⟨q1, q2⟩ := q False False.elim
    exact ⟨_, x, e, isSum_of hab (r q1 (q2 a b hresp))⟩
  · obtain ⟨t', x, e, _, _, _, r⟩ := query_st agg_max hab hf (.inl hF) st
    rw [hl] at e r
    obtain ⟨q1, q2⟩ := q True (fun _ => hnn)
    exact ⟨_, x, e, isMax_of hab (r q1 (q2 a b hresp))⟩
  · obtain ⟨t', x, e, _, _, _, r⟩ := query_st agg_min hab hf (.inl hF) st
    rw [hl] at e r
    obtain ⟨q1, q2⟩ := q True (fun _ => hnn)
    exact ⟨_, x, e, isMin_of hab (r q1 (q2 a b hresp))⟩

example : let ops : List (Op Int) := [.add 0 4 2, .mul 1 3 3, .max 0 4, .add 2 3 1, .mul 4 4 7, .sum 1 2]
    (∃ k : Nat, ([5, 1, 4, 2, 3] : List Int).length + 1 = 2 ^ (k + 1) ∨ ([5, 1, 4, 2, 3] : List Int).length = 2 ^ k ∨
      ([5, 1, 4, 2, 3] : List Int).length = 2 ^ k + 1) ∧
    (∀ op ∈ ops, Op.InRange 5 op) ∧ (∀ op ∈ ops, Op.Respects 2 3 op) ∧ (∀ op ∈ ops, Op.NonNeg op) := by
  refine ⟨⟨2, by simp⟩, ?_, ?_, ?_⟩ <;> simp [Op.InRange, InRange, Op.Respects, Op.NonNeg]

example : (do
    let t ← run 5 ([5, 1, 4, 2, 3] : List Int) [.add 0 4 2, .mul 1 3 3, .max 0 4, .add 2 3 1, .mul 4 4 7, .sum 1 2]
    let (_, x) ← querySum 5 t 2 3
    Out.ok (x, values [5, 1, 4, 2, 3] [.add 0 4 2, .mul 1 3 3, .max 0 4, .add 2 3 1, .mul 4 4 (7 : Int), .sum 1 2])) =
    .ok (32, [7, 9, 19, 13, 35]) := by decide +kernel

/-- C75: a query for one position returns the current element at that position, after any history of updates
(factors of any sign) and queries, on trees whose size is next to a power of two. -/
theorem C75_point {fuel : Nat} {v : List α} {ops : List (Op α)} {a : Int} (hv : v ≠ []) (hf : v.length ≤ fuel)
    (hn : ∃ k : Nat, v.length + 1 = 2 ^ (k + 1) ∨ v.length = 2 ^ k ∨ v.length = 2 ^ k + 1)
    (hr : ∀ op ∈ ops, Op.InRange v.length op) (ha : 0 ≤ a) (ha' : a < v.length) :
    ∃ t x, run fuel v ops = .ok t ∧ (values v ops)[a.toNat]? = some x ∧
      (∃ t', queryMax fuel t a a = .ok (t', x)) ∧
      (∃ t', queryMin fuel t a a = .ok (t', x)) ∧
      (∃ t', querySum fuel t a a = .ok (t', x)) := by
  have hF := roomy_fits hn
  obtain ⟨t, e, hl, st, q⟩ := run_ok hv hf hF ops hr
  have hab : InRange (values v ops).length a a := ⟨ha, le_refl a, by rw [hl]; exact ha'⟩
  have hg : Good False a a t 0 (((values v ops).length : Int) - 1) 1 := good_one t a _ _ _ (by rw [hl]; omega)
  rw [← hl] at hF hf ha'
  refine ⟨_, _, e, val_some _ ha ha', ?_, ?_, ?_⟩
  · obtain ⟨t', x, e, _, _, _, r⟩ := query_st (agg_one max (sel := Node.mx) fun _ _ h => h) hab hf (.inl hF) st
    rw [r False.elim hg rfl, hl] at e
    exact ⟨_, e⟩
  · obtain ⟨t', x, e, _, _, _, r⟩ := query_st (agg_one min (sel := Node.mn) fun _ h _ => h) hab hf (.inl hF) st
    rw [r False.elim hg rfl, hl] at e
    exact ⟨_, e⟩
  · obtain ⟨t', x, e, _, _, _, r⟩ := query_st (agg_one (· + ·) (sel := Node.sm) fun _ _ _ => rfl) hab hf (.inl hF) st
    rw [r False.elim hg rfl, hl] at e
    exact ⟨_, e⟩

example : (∃ k : Nat, ([5, 1, 4] : List Int).length + 1 = 2 ^ (k + 1) ∨ ([5, 1, 4] : List Int).length = 2 ^ k ∨
      ([5, 1, 4] : List Int).length = 2 ^ k + 1) ∧
    ∀ op ∈ ([.add 1 2 5, .mul 0 1 (-2)] : List (Op Int)), Op.InRange 3 op :=
  ⟨⟨1, by simp⟩, by simp [Op.InRange, InRange]⟩

example : (do
    let t ← run 3 ([5, 1, 4] : List Int) [.add 1 2 5, .mul 0 1 (-2)]
    let (t, x) ← queryMax 3 t 0 0
    let (t, y) ← queryMin 3 t 1 1
    let (_, z) ← querySum 3 t 2 2
    Out.ok (x, y, z)) = .ok (-10, -12, 9) := by decide +kernel

/-- The property C34: no history of calls in range is undefined. -/
def C34 (n : Nat) (α : Type) [CommRing α] [LinearOrder α] : Prop :=
  ∀ (fuel : Nat) (v : List α) (ops : List (Op α)), v.length = n → n ≤ fuel →
    (∀ op ∈ ops, Op.InRange n op) → ∃ t, run fuel v ops = .ok t

/-- C34, exactly: the vectors (of 4n entries) are long enough precisely for the sizes 2^k - 1, 2^k and 2^k + 1. -/
theorem C34_sizes (n : Nat) (hn : 1 ≤ n) :
    C34 n α ↔ ∃ k : Nat, n + 1 = 2 ^ (k + 1) ∨ n = 2 ^ k ∨ n = 2 ^ k + 1 := by
  constructor
  · intro h
    by_contra hne
    have hl : (List.replicate n (0 : α)).length = n := by simp
    have hne' : List.replicate n (0 : α) ≠ [] := by
      intro e; rw [e] at hl; simp at hl; omega
    obtain ⟨p, hp, hu⟩ := run_ub (fuel := n) hne' (by rw [hl]) (by
      rw [hl]
      intro k
      refine ⟨fun e => ?_, fun e => hne ⟨k, .inr (.inl e)⟩, fun e => hne ⟨k, .inr (.inr e)⟩⟩
      rcases k with _ | k
      · simp at e; omega
      · exact hne ⟨k, .inl e⟩)
    rw [hl] at hp
    obtain ⟨t, ht⟩ := h n _ [.add p p 0, .sum p p] hl (le_refl n) (by simp [Op.InRange, hp])
    rw [hu 0] at ht
    cases ht
  · intro h fuel v ops hl hf hr
    have hv : v ≠ [] := by intro e; subst e; simp at hl; omega
    subst hl
    obtain ⟨t, e, _⟩ := run_ok hv hf (roomy_fits h) ops hr
    exact ⟨_, e⟩

example : ∃ k : Nat, 7 + 1 = 2 ^ (k + 1) ∨ 7 = 2 ^ k ∨ 7 = 2 ^ k + 1 := ⟨2, by simp⟩

/-- C34 is false: six elements, an update and a query at position 3 read index 24 of vectors of length 24. -/
theorem C34_refuted : ∃ n : Nat, 1 ≤ n ∧ ¬ C34 n Int := by
  refine ⟨6, by omega, fun h => ?_⟩
  obtain ⟨t, e⟩ := h 6 [0, 0, 0, 0, 0, 0] [.add 3 3 1, .sum 3 3] rfl (le_refl 6) (by simp [Op.InRange, InRange])
  have w : (match run 6 ([0, 0, 0, 0, 0, 0] : List Int) [.add 3 3 1, .sum 3 3] with | .ub => true | _ => false) = true := by
    decide +kernel
  rw [e] at w
  cases w

/-- C34, partial: queries alone are in bounds for every size, and all calls are for the sizes of `C34_sizes`;
an empty vector makes the constructor recurse for ever. -/
theorem C34_partial (fuel : Nat) : build fuel ([] : List α) = .diverge ∧
    ∀ (v : List α) (qs : List (Op α)), v ≠ [] → v.length ≤ fuel → (∀ op ∈ qs, Op.InRange v.length op) →
      (∀ op ∈ qs, match op with | .add .. => False | .mul .. => False | _ => True) → ∃ t, run fuel v qs = .ok t := by
  constructor
  · have key : ∀ (fuel o : Nat) (t : Seg α), init [] fuel 0 (-1) o t = .diverge := by
      intro fuel
      induction fuel with
      | zero => intro o t; rfl
      | succ n ih =>
        intro o t
        rw [init, if_neg (by omega)]
        dsimp only
        rw [show ((0 : Int) + -1) / 2 = -1 by decide, ih]; rfl
    exact key fuel 1 _
  · intro v qs hv hf hr hq
    obtain ⟨t, e, ht⟩ := C32_static hv hf
    refine ⟨t, ?_⟩
    rw [run, e, Out.ok_bind]
    clear e
    induction qs with
    | nil => rfl
    | cons op qs ih =>
      have h1 := hr op (by simp)
      have h2 := hq op (by simp)
      rw [List.foldlM_cons]
      have : exec fuel t op = .ok t := by
        cases op with
        | add => exact h2.elim
        | mul => exact h2.elim
        | max a b => obtain ⟨x, e, _⟩ := (ht a b h1).1; rw [exec, e]; rfl
        | min a b => obtain ⟨x, e, _⟩ := (ht a b h1).2.1; rw [exec, e]; rfl
        | sum a b => obtain ⟨x, e, _⟩ := (ht a b h1).2.2; rw [exec, e]; rfl
      rw [this, Out.ok_bind]
      exact ih (fun o ho => hr o (by simp [ho])) (fun o ho => hq o (by simp [ho]))

example : ∀ op ∈ ([.max 0 5, .sum 3 3, .min 1 4] : List (Op Int)), Op.InRange 6 op := by
  simp [Op.InRange, InRange]

end SegmentTree
