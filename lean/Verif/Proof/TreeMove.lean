import Verif.Proof.TreeGet

/-! # Adding a node that is already in the tree -/

namespace Tree
open Cpp Spec

variable {par : Nat → Option Nat} {r : Nat} {N : List Nat} {h : Heap}

/-- `h'` has the objects of `h`, with longer tables of ancestors. -/
def Longer (h h' : Heap) : Prop := ∀ q nd, h q = some nd → ∃ nd', h' q = some nd' ∧ nd.ancestor <+: nd'.ancestor

theorem Longer.ancAt {h h' : Heap} (L : Longer h h') {q i z : Nat} (e : (do ancAt (← deref h q) i) = .ok z) :
    (do ancAt (← deref h' q) i) = .ok z := by
  obtain ⟨nd, e1, e2⟩ := Out.bind_eq_ok.1 e
  obtain ⟨nd', e3, t, e4⟩ := L q nd (deref_eq_ok.1 e1)
  rw [deref_ok e3, Out.ok_bind]
  unfold Tree.ancAt at e2 ⊢
  cases e5 : nd.ancestor[i]? with
  | none => rw [e5] at e2; cases e2
  | some w =>
    rw [e5] at e2
    rw [← e4, List.getElem?_append_left (List.getElem?_eq_some_iff.1 e5).1, e5]
    exact e2

theorem Longer.climb {h h' : Heap} (L : Longer h h') {l : Int} : ∀ (n q z : Nat), climb h l n q = .ok z →
    climb h' l n q = .ok z := by
  intro n
  induction n with
  | zero => intro q z e; cases e
  | succ n ih =>
    intro q z e
    rw [Tree.climb] at e ⊢
    by_cases c : l ≥ 2 ^ (30 - n)
    · rw [if_pos c] at e ⊢
      obtain ⟨w, e1, e2⟩ := Out.bind_eq_ok.1 e
      by_cases b : l.toNat.testBit (30 - n) = true
      · rw [if_pos b] at e1 ⊢
        rw [L.ancAt e1, Out.ok_bind]
        exact ih w z e2
      · rw [if_neg b] at e1 ⊢
        injection e1 with e1
        rw [Out.ok_bind, e1]
        exact ih w z e2
    · rw [if_neg c] at e ⊢
      exact e

/-- the loop for a node whose table begins with its old ancestors -/
theorem fill_move (hr : par r = none) {x d S : Nat} (hd : Depth par r x d) (hS : d < 2 ^ S)
    (hN : ∀ k z, 1 ≤ k → up par k x = some z → z ∈ N ∧ z ≠ x) :
    ∀ (n i : Nat) (h : Heap) (nd : Nd) (fuel : Nat), i + n + 1 = S → n < fuel →
      (∀ y ∈ N, y ≠ x → Rep par r h y) → h x = some nd → S ≤ nd.ancestor.length → (∀ j < S, nd.ancestor[j]? = up par (2 ^ j) x) →
      (2 ^ i ≤ d) →
      ∃ t, fillAncestors h x fuel i = .ok (store h x { nd with ancestor := nd.ancestor ++ t }) := by
  intro n
  induction n with
  | zero =>
    intro i h nd fuel hi hf hrep hx hl hanc hid
    obtain ⟨fuel, rfl⟩ : ∃ k, fuel = k + 1 := ⟨fuel - 1, by omega⟩
    obtain ⟨z, hz, hzd⟩ := up_some hd hid
    obtain ⟨hzN, hzne⟩ := hN _ z Nat.one_le_two_pow hz
    obtain ⟨nz, e, hz1, hz2, hz3, hz4, hz5⟩ := (hrep z hzN hzne).ex
    rw [fillAncestors, deref_ok hx, Out.ok_bind, ancAt_ok ((hanc i (by omega)).trans hz), Out.ok_bind, deref_ok hz1, Out.ok_bind]
    have hle : nz.ancestor.length ≤ i := by
      by_contra c
      have q := hz5 i
      rw [List.getElem?_eq_getElem (by omega)] at q
      have hup : up par (2 ^ i + 2 ^ i) x = some nz.ancestor[i] := by rw [up_add, hz]; exact q.symm
      have := (up_le hr hd hup).1
      rw [show S = i + 1 by omega, Nat.pow_succ] at hS
      omega
    rw [if_pos hle]
    refine ⟨[], ?_⟩
    congr 1
    funext q
    by_cases e : q = x
    · rw [e, store_self, hx]; simp
    · rw [store_ne _ _ e]
  | succ n ih =>
    intro i h nd fuel hi hf hrep hx hl hanc hid
    obtain ⟨fuel, rfl⟩ : ∃ k, fuel = k + 1 := ⟨fuel - 1, by omega⟩
    obtain ⟨z, hz, hzd⟩ := up_some hd hid
    obtain ⟨hzN, hzne⟩ := hN _ z Nat.one_le_two_pow hz
    obtain ⟨nz, e, hz1, hz2, hz3, hz4, hz5⟩ := (hrep z hzN hzne).ex
    rw [fillAncestors, deref_ok hx, Out.ok_bind, ancAt_ok ((hanc i (by omega)).trans hz), Out.ok_bind, deref_ok hz1, Out.ok_bind]
    by_cases hle : nz.ancestor.length ≤ i
    · rw [if_pos hle]
      refine ⟨[], ?_⟩
      congr 1
      funext q
      by_cases e : q = x
      · rw [e, store_self, hx]; simp
      · rw [store_ne _ _ e]
    · rw [if_neg hle]
      have q := hz5 i
      rw [List.getElem?_eq_getElem (by omega)] at q
      have hup : up par (2 ^ i + 2 ^ i) x = some nz.ancestor[i] := by rw [up_add, hz]; exact q.symm
      have hdi := (up_le hr hd hup).1
      rw [ancAt_ok (List.getElem?_eq_getElem (by omega)), Out.ok_bind]
      obtain ⟨t, et⟩ := ih (i + 1) (store h x { nd with ancestor := nd.ancestor ++ [nz.ancestor[i]] })
        { nd with ancestor := nd.ancestor ++ [nz.ancestor[i]] } fuel (by omega) (by omega)
        (fun y hy hne => (hrep y hy hne).congr fun nd hnd => ⟨nd.son, by rw [store_ne _ _ hne, hnd]⟩)
        (store_self _ _ _) (by simp; omega) (fun j hj => by
          dsimp only
          have hj' := hanc j hj
          rw [List.getElem?_append_left (by omega)]
          exact hj') (by rw [Nat.pow_succ]; omega)
      refine ⟨nz.ancestor[i] :: t, ?_⟩
      rw [et]
      congr 1
      funext q
      by_cases e : q = x
      · rw [e, store_self, store_self]; simp
      · rw [store_ne _ _ e, store_ne _ _ e, store_ne _ _ e]

/-- `addNode(x, p)` for a node `x` of the tree that has a father -/
theorem move_ok (H : TInv par r N h) {x p d e : Nat} (hx : x ∈ N) (hp : p ∈ N) (hdx : Depth par r x d)
    (hdp : Depth par r p e) (hd : d ≠ 0) (he : e < 2 ^ 30) {fuel : Nat} (hf : d < fuel) :
    ∃ h', addNode fuel h x p = .ok h' ∧ Longer h h' ∧
      (∀ nd, h x = some nd → ∃ s a, h' x = some ⟨some p, s, nd.id, nd.val, some ((e : Int) + 1), a⟩) ∧
      ∀ y ≠ x, ∀ nd, h y = some nd → ∃ s, h' y = some { nd with son := s } := by
  obtain ⟨nx, d', x1, x2, x3, x4, x5⟩ := H.get hx
  obtain rfl := depth_unique H.root hdx x2
  obtain ⟨np, e', p1, p2, p3, p4, p5⟩ := H.get hp
  obtain rfl := depth_unique H.root hdp p2
  have hlen := anc_length H hx hdx x1
  have hS : d < 2 ^ nx.ancestor.length := by
    have : ¬ 2 ^ nx.ancestor.length ≤ d := fun q => by have := (hlen _).2 q; omega
    omega
  have hS0 : 0 < nx.ancestor.length := (hlen 0).2 (by simp; omega)
  have hSf : nx.ancestor.length ≤ d := by
    have h1 := (hlen (nx.ancestor.length - 1)).1 (by omega)
    have h2 := @Nat.lt_two_pow_self (nx.ancestor.length - 1)
    omega
  -- after `fa->addSon(node)`
  obtain ⟨h1, hh1⟩ : ∃ h1, h1 = store h p { np with son := np.son ++ [x] } := ⟨_, rfl⟩
  have k1 : ∀ y nd, h y = some nd → ∃ s, h1 y = some { nd with son := s } := by
    intro y nd hy
    by_cases c : y = p
    · subst c
      rw [p1] at hy; injection hy with hy
      exact ⟨np.son ++ [x], by rw [hh1, store_self, hy]⟩
    · exact ⟨nd.son, by rw [hh1, store_ne _ _ c, hy]⟩
  obtain ⟨sx, y1⟩ := k1 x nx x1
  obtain ⟨m, hm⟩ : ∃ m : Nd, m = ⟨some p, sx, nx.id, nx.val, some ((e : Int) + 1), nx.ancestor ++ [p]⟩ := ⟨_, rfl⟩
  have hgt : getHeight (store h1 x { nx with son := sx, fa := some p }) p = .ok (e : Int) := by
    unfold getHeight
    by_cases c : p = x
    · subst c
      rw [p1] at x1; injection x1 with x1; subst x1
      rw [deref_ok (store_self _ _ _), Out.ok_bind, p3]
    · obtain ⟨s, q⟩ := k1 p np p1
      rw [deref_ok ((store_ne _ _ c).trans q), Out.ok_bind, p3]
  have est : store (store (store h1 x { nx with son := sx, fa := some p }) x
      { nx with son := sx, fa := some p, height := some ((e : Int) + 1) }) x m = store h1 x m := by
    funext q
    by_cases c : q = x
    · rw [c, store_self, store_self]
    · rw [store_ne _ _ c, store_ne _ _ c, store_ne _ _ c, store_ne _ _ c]
  have run : addNode fuel h x p = fillAncestors (store h1 x m) x fuel 0 := by
    unfold addNode
    rw [deref_ok p1, Out.ok_bind]
    dsimp only
    rw [← hh1, deref_ok y1, Out.ok_bind, hgt, Out.ok_bind, int_ok (by unfold IsInt INT_MIN INT_MAX; omega), Out.ok_bind,
      deref_ok (store_self _ _ _), Out.ok_bind, deref_ok (store_self _ _ _), Out.ok_bind]
    dsimp only
    rw [← hm, est]
  obtain ⟨t, et⟩ := fill_move (N := N) (S := nx.ancestor.length) H.root hdx hS (fun k z hk hz => by
      refine ⟨H.up_mem _ _ _ hx hz, fun c => ?_⟩
      subst c
      obtain ⟨u1, u2⟩ := up_le H.root hdx hz
      have := depth_unique H.root u2 hdx
      omega) (nx.ancestor.length - 1) 0 (store h1 x m) m fuel (by omega) (by omega)
    (fun y hy hne => (H.rep y hy).congr fun nd hnd => by
      obtain ⟨s, q⟩ := k1 y nd hnd
      exact ⟨s, by rw [store_ne _ _ hne, q]⟩)
    (store_self _ _ _) (by rw [hm]; simp) (fun j hj => by
      rw [hm]
      dsimp only
      rw [List.getElem?_append_left hj]
      exact x5 j) (by simp; omega)
  have fin : store (store h1 x m) x { m with ancestor := m.ancestor ++ t } = store h1 x { m with ancestor := m.ancestor ++ t } := by
    funext q
    by_cases c : q = x
    · rw [c, store_self, store_self]
    · rw [store_ne _ _ c, store_ne _ _ c, store_ne _ _ c]
  rw [fin] at et
  have other : ∀ y ≠ x, ∀ nd, h y = some nd → ∃ s, store h1 x { m with ancestor := m.ancestor ++ t } y =
      some { nd with son := s } := by
    intro y hy nd hnd
    obtain ⟨s, q⟩ := k1 y nd hnd
    exact ⟨s, by rw [store_ne _ _ hy, q]⟩
  refine ⟨_, run.trans et, fun q nd hq => ?_, fun nd hnd => ?_, other⟩
  · by_cases c : q = x
    · subst c
      rw [x1] at hq; injection hq with hq; subst hq
      exact ⟨_, store_self _ _ _, by rw [hm]; simp⟩
    · obtain ⟨s, w⟩ := other q c nd hq
      exact ⟨_, w, List.prefix_rfl⟩
  · rw [x1] at hnd; injection hnd with hnd; subst hnd
    exact ⟨sx, m.ancestor ++ t, by rw [store_self, hm]⟩

end Tree
