import Verif.Props.SegmentTree
import Verif.Proof.SegmentTreeExact

/-! # C33: what the queries of a segment tree return after any history -/

namespace SegmentTree
open Cpp Spec

variable {α : Type} [CommRing α] [LinearOrder α] [IsStrictOrderedRing α]

/-- C33, partial: the exact answers after every history (factors of any sign), on trees whose size is next to a power of
two (see C34).  A query joins the aggregates of the blocks into which its interval is cut; each is the aggregate of
the initial values of the block, changed by exactly those updates whose interval contains the whole block.  A maximum
or minimum is changed by a negative factor like any other: it is not exchanged for its opposite.
Missing for C33: the answers are not those of the current values. -/
theorem C33_blocks_partial {fuel : Nat} {v : List α} {ops : List (Op α)} {a b : Int} (hv : v ≠ []) (hf : v.length ≤ fuel)
    (hn : ∃ k : Nat, v.length + 1 = 2 ^ (k + 1) ∨ v.length = 2 ^ k ∨ v.length = 2 ^ k + 1)
    (hr : ∀ op ∈ ops, Op.InRange v.length op) (hab : InRange v.length a b) :
    ∃ t, run fuel v ops = .ok t ∧
      (∃ t' x, querySum fuel t a b = .ok (t', x) ∧
        x = ((cut a b 0 (v.length - 1)).map fun (l, r) =>
          kept ((r - l + 1 : Int) : α) ops l r (slice v l r).sum).sum) ∧
      (∃ t' x, queryMax fuel t a b = .ok (t', x) ∧
        IsGreatest {y | ∃ l r m, (l, r) ∈ cut a b 0 (v.length - 1) ∧ IsMax v l r m ∧ y = kept 1 ops l r m} x) ∧
      (∃ t' x, queryMin fuel t a b = .ok (t', x) ∧
        IsLeast {y | ∃ l r m, (l, r) ∈ cut a b 0 (v.length - 1) ∧ IsMin v l r m ∧ y = kept 1 ops l r m} x) := by
  have hF := roomy_fits hn
  obtain ⟨t, e, hl, st, _⟩ := run_ok hv hf hF ops hr
  obtain ⟨⟨n0, t0⟩, e0, q0⟩ := C32_static hv hf
  have hn0 : n0 = v.length := by
    obtain ⟨t1, e1, _⟩ := build_ok fuel v hv hf
    rw [e1] at e0
    cases e0
    rfl
  subst hn0
  have ef : ops.foldlM (exec fuel) ⟨v.length, t0⟩ = .ok ⟨v.length, t⟩ := by
    rw [run, e0, Out.ok_bind] at e
    exact e
  have hF' := hF
  have hf' := hf
  have hab' := hab
  rw [← hl] at hF' hf' hab'
  choose gx hgx using fun (p : Int × Int) (h : InRange v.length p.1 p.2) => (q0 p.1 p.2 h).1
  choose gn hgn using fun (p : Int × Int) (h : InRange v.length p.1 p.2) => (q0 p.1 p.2 h).2.1
  choose gs hgs using fun (p : Int × Int) (h : InRange v.length p.1 p.2) => (q0 p.1 p.2 h).2.2
  have hin : ∀ p ∈ cut a b 0 ((v.length : Int) - 1), InRange v.length p.1 p.2 := fun p hp => by
    have h1 := hab.1; have h2 := hab.2.1; have h3 := hab.2.2
    have := (cut_blk 0 _ 0 (by omega) p hp).sub
    exact ⟨by omega, by omega, by omega⟩
  classical
  refine ⟨_, e, ?_, ?_, ?_⟩
  · obtain ⟨t', x, eq, _⟩ := query_st agg_sum hab' hf' (.inl hF') st
    rw [hl] at eq
    refine ⟨_, x, eq, ?_⟩
    have := run_exact sel_sm ⟨fun _ _ => rfl, fun _ _ => rfl⟩ hF hr ef hab eq
      (ini := fun l r => (slice v l r).sum) fun l r hlr => ⟨_, by
        have := hgs (l, r) hlr
        rw [this.2] at this
        exact this.1⟩
    rw [this]
    refine ans_cut (R := fun c x => x = (c.map fun (l, r) =>
      kept ((r - l + 1 : Int) : α) ops l r (slice v l r).sum).sum) ?_ ?_ hab.2.1 0 _ 0 ?_ ?_ ?_
    · intro l r; simp
    · rintro c d x y rfl rfl; simp
    · have := hab.1; have := hab.2.1; have := hab.2.2; omega
    · have := hab.2.1; have := hab.2.2; omega
    · have := hab.1; have := hab.2.1; omega
  · obtain ⟨t', x, eq, _⟩ := query_st agg_max hab' hf' (.inl hF') st
    rw [hl] at eq
    refine ⟨_, x, eq, ?_⟩
    have := run_exact sel_mx ⟨fun _ _ => rfl, fun _ _ => rfl⟩ hF hr ef hab eq
      (ini := fun l r => if h : InRange v.length l r then gx (l, r) h else 0) fun l r hlr => ⟨_, by
        have := hgx (l, r) hlr
        rw [dif_pos hlr]
        exact this.1⟩
    rw [this]
    have key := ans_cut (comb := max)
      (f := fun l r => kept (1 : α) ops l r (if h : InRange v.length l r then gx (l, r) h else 0))
      (R := fun c x => IsGreatest {y | ∃ p ∈ c, y = kept (1 : α) ops p.1 p.2
        (if h : InRange v.length p.1 p.2 then gx p h else 0)} x)
      (fun l r => ⟨⟨(l, r), by simp, rfl⟩, fun y hy => by
        obtain ⟨p, hp, rfl⟩ := hy
        simp only [List.mem_singleton] at hp
        subst hp; exact le_refl _⟩)
      (fun c d x y hx hy => by
        have : {z | ∃ p ∈ c ++ d, z = kept (1 : α) ops p.1 p.2
            (if h : InRange v.length p.1 p.2 then gx p h else 0)} =
          {z | ∃ p ∈ c, z = kept (1 : α) ops p.1 p.2 (if h : InRange v.length p.1 p.2 then gx p h else 0)} ∪
          {z | ∃ p ∈ d, z = kept (1 : α) ops p.1 p.2 (if h : InRange v.length p.1 p.2 then gx p h else 0)} := by
          ext z
          simp only [List.mem_append, Set.mem_ofPred_eq, Set.mem_union]
          constructor
          · rintro ⟨p, h | h, e⟩
            · exact .inl ⟨p, h, e⟩
            · exact .inr ⟨p, h, e⟩
          · rintro (⟨p, h, e⟩ | ⟨p, h, e⟩)
            · exact ⟨p, .inl h, e⟩
            · exact ⟨p, .inr h, e⟩
        rw [this]
        exact hx.union hy) hab.2.1 0 ((v.length : Int) - 1) 0
      (by have := hab.1; have := hab.2.1; have := hab.2.2; omega) (by have := hab.2.1; have := hab.2.2; omega)
      (by have := hab.1; have := hab.2.1; omega)
    refine ⟨?_, ?_⟩
    · obtain ⟨p, hp, ey⟩ := key.1
      have hi := hin p hp
      rw [dif_pos hi] at ey
      exact ⟨p.1, p.2, gx p hi, hp, (hgx p hi).2, ey⟩
    · rintro y ⟨l, r, m, hp, hm, rfl⟩
      refine key.2 ⟨(l, r), hp, ?_⟩
      have hi := hin _ hp
      dsimp only
      rw [dif_pos hi, (hgx (l, r) hi).2.unique hm]
  · obtain ⟨t', x, eq, _⟩ := query_st agg_min hab' hf' (.inl hF') st
    rw [hl] at eq
    refine ⟨_, x, eq, ?_⟩
    have := run_exact sel_mn ⟨fun _ _ => rfl, fun _ _ => rfl⟩ hF hr ef hab eq
      (ini := fun l r => if h : InRange v.length l r then gn (l, r) h else 0) fun l r hlr => ⟨_, by
        have := hgn (l, r) hlr
        rw [dif_pos hlr]
        exact this.1⟩
    rw [this]
    have key := ans_cut (comb := min)
      (f := fun l r => kept (1 : α) ops l r (if h : InRange v.length l r then gn (l, r) h else 0))
      (R := fun c x => IsLeast {y | ∃ p ∈ c, y = kept (1 : α) ops p.1 p.2
        (if h : InRange v.length p.1 p.2 then gn p h else 0)} x)
      (fun l r => ⟨⟨(l, r), by simp, rfl⟩, fun y hy => by
        obtain ⟨p, hp, rfl⟩ := hy
        simp only [List.mem_singleton] at hp
        subst hp; exact le_refl _⟩)
      (fun c d x y hx hy => by
        have : {z | ∃ p ∈ c ++ d, z = kept (1 : α) ops p.1 p.2
            (if h : InRange v.length p.1 p.2 then gn p h else 0)} =
          {z | ∃ p ∈ c, z = kept (1 : α) ops p.1 p.2 (if h : InRange v.length p.1 p.2 then gn p h else 0)} ∪
          {z | ∃ p ∈ d, z = kept (1 : α) ops p.1 p.2 (if h : InRange v.length p.1 p.2 then gn p h else 0)} := by
          ext z
          simp only [List.mem_append, Set.mem_ofPred_eq, Set.mem_union]
          constructor
          · rintro ⟨p, h | h, e⟩
            · exact .inl ⟨p, h, e⟩
            · exact .inr ⟨p, h, e⟩
          · rintro (⟨p, h, e⟩ | ⟨p, h, e⟩)
            · exact ⟨p, .inl h, e⟩
            · exact ⟨p, .inr h, e⟩
        rw [this]
        exact hx.union hy) hab.2.1 0 ((v.length : Int) - 1) 0
      (by have := hab.1; have := hab.2.1; have := hab.2.2; omega) (by have := hab.2.1; have := hab.2.2; omega)
      (by have := hab.1; have := hab.2.1; omega)
    refine ⟨?_, ?_⟩
    · obtain ⟨p, hp, ey⟩ := key.1
      have hi := hin p hp
      rw [dif_pos hi] at ey
      exact ⟨p.1, p.2, gn p hi, hp, (hgn p hi).2, ey⟩
    · rintro y ⟨l, r, m, hp, hm, rfl⟩
      refine key.2 ⟨(l, r), hp, ?_⟩
      have hi := hin _ hp
      dsimp only
      rw [dif_pos hi, (hgn (l, r) hi).2.unique hm]

/-- On five elements the interval `1..4` is cut into `1..1`, `2..2` and `3..4`. -/
example : cut 1 4 0 4 = [(1, 1), (2, 2), (3, 4)] := by decide +kernel

example : (∃ k : Nat, ([5, 1, 4, 2, 3] : List Int).length + 1 = 2 ^ (k + 1) ∨
      ([5, 1, 4, 2, 3] : List Int).length = 2 ^ k ∨ ([5, 1, 4, 2, 3] : List Int).length = 2 ^ k + 1) ∧
    (∀ op ∈ ([.add 2 3 10, .mul 0 4 (-2), .add 3 4 1] : List (Op Int)), Op.InRange 5 op) ∧ InRange 5 1 4 :=
  ⟨⟨2, by simp⟩, by simp [Op.InRange, InRange], by simp [InRange]⟩

/-- The summand 10 for `2..3` reaches the block `2..2` but not `3..4`, whose sum stays 2 + 3 until it is multiplied. -/
example : let ops : List (Op Int) := [.add 2 3 10, .mul 0 4 (-2), .add 3 4 1]
    ((cut 1 4 0 4).map fun (l, r) => kept ((r - l + 1 : Int) : Int) ops l r (slice [5, 1, 4, 2, 3] l r).sum) =
      [-2, -28, -8] ∧
    (do
      let t ← run 5 ([5, 1, 4, 2, 3] : List Int) ops
      let (_, x) ← querySum 5 t 1 4
      Out.ok (x, (slice (values [5, 1, 4, 2, 3] ops) 1 4).sum)) = .ok (-38, -58) := by decide +kernel

end SegmentTree
