import Verif.Proof.Tree

/-! # `LCA` of nodes of two different trees -/

namespace Tree
open Cpp Spec

variable {par par' : Nat → Option Nat} {r r' : Nat} {N N' : List Nat} {h : Heap}

theorem TInv.congr {h' : Heap} (H : TInv par r N h) (e : ∀ x ∈ N, h' x = h x) : TInv par r N h' := by
  refine ⟨H.root, fun x hx => ?_, H.closed⟩
  obtain ⟨nd, d, h1, h2⟩ := H.get hx
  exact ⟨⟨nd, d, (e x hx).trans h1, h2⟩⟩

/-- The loop of `LCA` for two nodes of different trees that are `D` steps below their roots. -/
theorem cross_loop (H : TInv par r N h) (H' : TInv par' r' N' h) (hN : ∀ x ∈ N, x ∉ N') :
    ∀ (S x y D : Nat), x ∈ N → y ∈ N' → Depth par r x D → Depth par' r' y D →
      (D = 2 ^ S - 1 → (List.range S).reverse.foldlM (lcaStep h) (x, y) = .ok (r, r')) ∧
      (D < 2 ^ S - 1 → (List.range S).reverse.foldlM (lcaStep h) (x, y) = .ub) := by
  intro S
  induction S with
  | zero =>
    intro x y D hx hy hdx hdy
    refine ⟨fun e => ?_, fun e => by simp at e⟩
    simp at e
    subst e
    simp [Depth, up] at hdx hdy
    subst hdx hdy
    rfl
  | succ S ih =>
    intro x y D hx hy hdx hdy
    rw [List.range_succ, List.reverse_append, List.reverse_singleton, List.singleton_append, List.foldlM_cons]
    have hpos := Nat.two_pow_pos S
    have hpow : 2 ^ (S + 1) = 2 * 2 ^ S := by rw [Nat.pow_succ]; ring
    have hstep : lcaStep h (x, y) S = (match up par (2 ^ S) x, up par' (2 ^ S) y with
        | some a, some b => if a ≠ b then Out.ok (a, b) else .ok (x, y)
        | _, _ => .ub) := by
      have e1 := H.ancAt hx S
      have e2 := H'.ancAt hy S
      obtain ⟨nx, _, x1, _⟩ := H.get hx
      obtain ⟨ny, _, y1, _⟩ := H'.get hy
      rw [deref_ok x1, Out.ok_bind] at e1
      rw [deref_ok y1, Out.ok_bind] at e2
      unfold lcaStep
      dsimp only
      rw [deref_ok x1, Out.ok_bind, e1]
      cases up par (2 ^ S) x with
      | none => rfl
      | some a =>
        simp only [Out.ok_bind]
        rw [deref_ok y1, Out.ok_bind, e2]
        cases up par' (2 ^ S) y with
        | none => rfl
        | some b => simp only [Out.ok_bind]
    by_cases safe : 2 ^ S ≤ D
    · obtain ⟨a, ha, hda⟩ := up_some hdx safe
      obtain ⟨b, hb, hdb⟩ := up_some hdy safe
      have am := H.up_mem _ _ _ hx ha
      have bm := H'.up_mem _ _ _ hy hb
      have ne : a ≠ b := fun e => hN a am (e ▸ bm)
      rw [hstep, ha, hb]
      dsimp only
      rw [if_pos ne, Out.ok_bind]
      have := ih a b (D - 2 ^ S) am bm hda hdb
      exact ⟨fun e => this.1 (by omega), fun e => this.2 (by omega)⟩
    · rw [hstep, up_none H.root hdx (by omega)]
      exact ⟨fun e => by omega, fun _ => rfl⟩

theorem cross_tail (H : TInv par r N h) (H' : TInv par' r' N' h) (hN : ∀ x ∈ N, x ∉ N') {x y d : Nat} (hx : x ∈ N)
    (hy : y ∈ N') (hdx : Depth par r x d) (hdy : Depth par' r' y d) :
    ((∃ k, d + 1 = 2 ^ k) → lcaTail h x y = .ok none) ∧ (¬ (∃ k, d + 1 = 2 ^ k) → lcaTail h x y = .ub) := by
  have ne : x ≠ y := fun e => hN x hx (e ▸ hy)
  obtain ⟨nx, e, x1, _⟩ := H.get hx
  have hS := anc_length H hx hdx x1
  have hlt : d < 2 ^ nx.ancestor.length := by
    have : ¬ 2 ^ nx.ancestor.length ≤ d := fun q => by have := (hS _).2 q; omega
    omega
  have key := cross_loop H H' hN nx.ancestor.length x y d hx hy hdx hdy
  unfold lcaTail
  rw [if_neg ne, deref_ok x1, Out.ok_bind]
  have pw : (∃ k, d + 1 = 2 ^ k) ↔ d = 2 ^ nx.ancestor.length - 1 := by
    refine ⟨fun ⟨k, hk⟩ => ?_, fun e => ⟨nx.ancestor.length, by omega⟩⟩
    have h1 : ¬ k < nx.ancestor.length := fun q => by have := (hS k).1 q; omega
    have h2 : k ≤ nx.ancestor.length := by
      by_contra q
      have := Nat.pow_le_pow_right (n := 2) (by omega) (show nx.ancestor.length + 1 ≤ k by omega)
      rw [Nat.pow_succ] at this
      omega
    have : k = nx.ancestor.length := by omega
    subst this
    omega
  refine ⟨fun c => ?_, fun c => ?_⟩
  · rw [key.1 (pw.1 c), Out.ok_bind]
    dsimp only
    have hr : r ∈ N := H.up_mem _ _ _ hx hdx
    obtain ⟨nr, _, r1, _, _, r4, _⟩ := H.get hr
    rw [deref_ok r1, Out.ok_bind, r4, H.root]
  · have nq : ¬ d = 2 ^ nx.ancestor.length - 1 := fun q => c (pw.2 q)
    rw [key.2 (by omega)]
    rfl

theorem cross_lca (H : TInv par r N h) (H' : TInv par' r' N' h) (hN : ∀ x ∈ N, x ∉ N') {x y dx dy : Nat}
    (hx : x ∈ N) (hy : y ∈ N') (hdx : Depth par r x dx) (hdy : Depth par' r' y dy) (hsx : dx < 2 ^ 30)
    (hsy : dy < 2 ^ 30) :
    ((∃ k, min dx dy + 1 = 2 ^ k) → lca h x y = .ok none) ∧
    (¬ (∃ k, min dx dy + 1 = 2 ^ k) → lca h x y = .ub) := by
  by_cases c : dx < dy
  · obtain ⟨y', hy', hdy'⟩ := up_some hdy (k := dy - dx) (by omega)
    rw [show dy - (dy - dx) = dx by omega] at hdy'
    have e : lca h x y = lcaTail h x y' := by
      unfold lca lcaTail
      rw [getHeight_ok H hx hdx, Out.ok_bind, getHeight_ok H' hy hdy, Out.ok_bind,
        if_pos (show (dx : Int) < dy by omega), int_ok (by unfold IsInt INT_MIN INT_MAX; omega), Out.ok_bind,
        show (dy : Int) - dx = ((dy - dx : Nat) : Int) by omega, getAncestor_eq H' hy (by omega), hy']
      rfl
    rw [min_eq_left (by omega), e]
    exact cross_tail H H' hN hx (H'.up_mem _ _ _ hy hy') hdx hdy'
  · obtain ⟨x', hx', hdx'⟩ := up_some hdx (k := dx - dy) (by omega)
    rw [show dx - (dx - dy) = dy by omega] at hdx'
    have e : lca h x y = lcaTail h x' y := by
      unfold lca lcaTail
      rw [getHeight_ok H hx hdx, Out.ok_bind, getHeight_ok H' hy hdy, Out.ok_bind,
        if_neg (show ¬ (dx : Int) < dy by omega), int_ok (by unfold IsInt INT_MIN INT_MAX; omega), Out.ok_bind,
        show (dx : Int) - dy = ((dx - dy : Nat) : Int) by omega, getAncestor_eq H hx (by omega), hx']
      rfl
    rw [min_eq_right (by omega), e]
    exact cross_tail H H' hN (H.up_mem _ _ _ hx hx') hy hdx' hdy

theorem cross_distance (H : TInv par r N h) (H' : TInv par' r' N' h) (hN : ∀ x ∈ N, x ∉ N') {x y dx dy : Nat}
    (hx : x ∈ N) (hy : y ∈ N') (hdx : Depth par r x dx) (hdy : Depth par' r' y dy) (hsx : dx < 2 ^ 30)
    (hsy : dy < 2 ^ 30) : getDistance h x y = .ub := by
  have k := cross_lca H H' hN hx hy hdx hdy hsx hsy
  unfold getDistance
  rw [getHeight_ok H hx hdx, Out.ok_bind, getHeight_ok H' hy hdy, Out.ok_bind,
    int_ok (by unfold IsInt INT_MIN INT_MAX; omega), Out.ok_bind]
  by_cases c : ∃ k, min dx dy + 1 = 2 ^ k
  · rw [k.1 c]; rfl
  · rw [k.2 c]; rfl

theorem lca_congr {h' : Heap} (H : TInv par r N h) (H' : TInv par r N h') {x y dx dy : Nat} (hx : x ∈ N) (hy : y ∈ N)
    (hdx : Depth par r x dx) (hdy : Depth par r y dy) (hsx : dx < 2 ^ 30) (hsy : dy < 2 ^ 30) :
    lca h x y = lca h' x y := by
  obtain ⟨a, L, a1, a2, a3, a4, a5⟩ := lca_ok H hx hy hdx hdy hsx hsy
  obtain ⟨b, M, b1, b2, b3, b4, b5⟩ := lca_ok H' hx hy hdx hdy hsx hsy
  have hab : a = b := by
    obtain ⟨i, hi⟩ := b1.2.2 a a1.1 a1.2.1
    obtain ⟨j, hj⟩ := a1.2.2 b b1.1 b1.2.1
    obtain ⟨i1, i2⟩ := up_le H.root b2 hi
    obtain ⟨j1, j2⟩ := up_le H.root a2 hj
    have := depth_unique H.root i2 a2
    have := depth_unique H.root j2 b2
    have : i = 0 := by omega
    subst this
    simp [up] at hi
    exact hi.symm
  subst hab
  have := depth_unique H.root a2 b2
  subst this
  by_cases c : (L = min dx dy ∨ ∀ i, 2 ^ i ≤ min dx dy → 2 ^ i ≤ L + 1 + (min dx dy - L - 1) % 2 ^ (i + 1))
  · rw [a4 c, b4 c]
  · rw [a5 c, b5 c]

theorem run_two {adds adds' : List (Nat × Nat)} (hb : Built r adds) (hb' : Built r' adds')
    (hN : ∀ x ∈ nodes r adds, x ∉ nodes r' adds') {fuel : Nat} (hf : ∀ x ∈ nodes r adds, Fresh h x)
    (hf' : ∀ x ∈ nodes r' adds', Fresh h x) (hlen : adds.length ≤ 2 ^ 30) (hlen' : adds'.length ≤ 2 ^ 30)
    (hfuel : adds.length < fuel) (hfuel' : adds'.length < fuel) :
    ∃ h1 h2, run fuel h r adds = .ok h1 ∧ run fuel h1 r' adds' = .ok h2 ∧
      TInv (parentOf adds) r (nodes r adds) h2 ∧ TInv (parentOf adds') r' (nodes r' adds') h2 := by
  obtain ⟨h1, e1, H1, o1⟩ := run_ok hb hf hlen hfuel
  obtain ⟨h2, e2, H2, o2⟩ := run_ok hb' (h := h1) (fuel := fuel) (fun x hx => by
    obtain ⟨id, val, e⟩ := hf' x hx
    exact ⟨id, val, (o1 x fun q => hN x q hx).trans e⟩) hlen' hfuel'
  exact ⟨h1, h2, e1, e2, H1.congr fun x hx => o2 x (hN x hx), H2⟩

end Tree
