import Verif.Proof.SegmentTreeCost
import Verif.Props.SegmentTree

/-! # C121: segment trees are fast

`fuel` bounds the depth of the recursion: a deeper recursion is reported as `diverge`. -/

namespace SegmentTree
open Cpp Spec

variable {α : Type} [CommRing α] [LinearOrder α]

/-- **C121, depth.**  Construction and any history of calls with intervals in range recurse at most `⌈log2 n⌉ + 1` deep:
every such bound on the depth gives the result of every other one. -/
theorem C121_depth {v : List α} {ops : List (Op α)} (hv : v ≠ []) (hr : ∀ op ∈ ops, Op.InRange v.length op) (fuel m : Nat)
    (hf : Nat.clog 2 v.length + 1 ≤ fuel) (hm : Nat.clog 2 v.length + 1 ≤ m) : run fuel v ops = run m v ops :=
  run_depth hv hr (Nat.le_pow_clog (by omega) _) (by omega) (by omega)

example : run 4 ([5, 1, 4, 2, 3, 8] : List Int) [.add 0 4 2, .mul 1 3 3] = run 100 [5, 1, 4, 2, 3, 8] [.add 0 4 2, .mul 1 3 3] :=
  C121_depth (by simp) (by simp [Op.InRange, InRange]) 4 100 (by decide +kernel) (by decide +kernel)

/-- The bound is attained: three levels are too few for six elements. -/
example : build 3 ([5, 1, 4, 2, 3, 8] : List Int) = .diverge := rfl

variable [IsStrictOrderedRing α] in
/-- **C121, together with C32.**  With a recursion depth of `⌈log2 n⌉ + 1` the queries on the initial data are right. -/
theorem C121_static {fuel : Nat} {v : List α} (hv : v ≠ []) (hf : Nat.clog 2 v.length + 1 ≤ fuel) :
    ∃ t, build fuel v = .ok t ∧ ∀ a b, InRange v.length a b →
      (∃ x, queryMax fuel t a b = .ok (t, x) ∧ IsMax v a b x) ∧
      (∃ x, queryMin fuel t a b = .ok (t, x) ∧ IsMin v a b x) ∧
      (∃ x, querySum fuel t a b = .ok (t, x) ∧ IsSum v a b x) := by
  have hp := Nat.le_pow_clog (b := 2) (by omega) v.length
  have hl : 1 ≤ v.length := by cases v with | nil => exact absurd rfl hv | cons => simp
  obtain ⟨t, e, H⟩ := C32_static (fuel := max fuel v.length) hv (by omega)
  have hs : t.size = v.length := init_size v e
  have hd : ((v.length : Int) - 1) - 0 + 1 ≤ 2 ^ Nat.clog 2 v.length := by
    have : (v.length : Int) ≤ ((2 ^ Nat.clog 2 v.length : Nat) : Int) := by exact_mod_cast hp
    push_cast at this; omega
  have eb : build fuel v = build (max fuel v.length) v :=
    init_depth v (d := Nat.clog 2 v.length) (by omega) hd (by omega) (by omega)
  refine ⟨t, eb.trans e, fun a b hr => ?_⟩
  obtain ⟨h1, h2, h3⟩ := hr
  have q : ∀ (sel : Node α → α) (comb : α → α → α), query sel comb a b fuel 0 ((t.size : Int) - 1) 1 t =
      query sel comb a b (max fuel v.length) 0 ((t.size : Int) - 1) 1 t := fun sel comb =>
    query_depth sel comb (d := Nat.clog 2 v.length) (by omega) h2 (by omega) (by omega) (by rw [hs]; exact hd) (by omega) (by omega)
  rw [queryMax, queryMin, querySum, q, q, q]
  exact H a b ⟨h1, h2, h3⟩

example : ∃ t, build 4 ([5, 1, 4, 2, 3, 8] : List Int) = .ok t ∧ ∀ a b, InRange 6 a b →
    (∃ x, queryMax 4 t a b = .ok (t, x) ∧ IsMax [5, 1, 4, 2, 3, 8] a b x) ∧
    (∃ x, queryMin 4 t a b = .ok (t, x) ∧ IsMin [5, 1, 4, 2, 3, 8] a b x) ∧
    (∃ x, querySum 4 t a b = .ok (t, x) ∧ IsSum [5, 1, 4, 2, 3, 8] a b x) :=
  C121_static (by simp) (by decide +kernel)

/-- **C121, breadth.**  A query over any interval in range combines at most `2 · ⌈log2 n⌉ + 1` stored entries, in any state
of the tree: this is what the recursion returns if every entry counts one. -/
theorem C121_entries (fuel : Nat) (t t' : Seg Int) (a b x : Int) (hr : InRange t.size a b)
    (h : query (fun _ => 1) (· + ·) a b fuel 0 ((t.size : Int) - 1) 1 t = .ok (t', x)) : x ≤ 2 * Nat.clog 2 t.size + 1 := by
  obtain ⟨h1, h2, h3⟩ := hr
  have hp := Nat.le_pow_clog (b := 2) (by omega) t.size
  have hd : ((t.size : Int) - 1) - 0 + 1 ≤ 2 ^ Nat.clog 2 t.size := by
    have : (t.size : Int) ≤ ((2 ^ Nat.clog 2 t.size : Nat) : Int) := by exact_mod_cast hp
    push_cast at this; omega
  exact count_query hd (by omega) h2 (by omega) (by omega) h

example : ∃ t, build 5 (List.replicate 16 (7 : Int)) = .ok t ∧ ∃ t', query (fun _ => 1) (· + ·) 1 14 5 0 ((t.size : Int) - 1) 1 t = .ok (t', 6) ∧
    (6 : Int) ≤ 2 * Nat.clog 2 t.size + 1 := by
  obtain ⟨t, e, -⟩ := C121_static (fuel := 5) (v := List.replicate 16 (7 : Int)) (by simp) (by decide +kernel)
  have hs : t.size = 16 := init_size _ e
  have w : (do let t ← build 5 (List.replicate 16 (7 : Int)); let (_, x) ← query (fun _ => 1) (· + ·) 1 14 5 0 ((t.size : Int) - 1) 1 t; Out.ok x) =
      .ok 6 := by decide +kernel
  rw [e, Out.ok_bind] at w
  obtain ⟨⟨t', x⟩, h1, h2⟩ := (Out.bind_eq_ok ..).1 w
  injection h2 with h2
  subst h2
  exact ⟨t, e, t', h1, C121_entries 5 t t' 1 14 6 (by rw [hs]; simp [InRange]) h1⟩

end SegmentTree
