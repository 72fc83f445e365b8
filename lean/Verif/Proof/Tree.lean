import Verif.Spec.Tree
import Verif.Proof.Loop
import Mathlib.Data.Nat.Bitwise
import Mathlib.Tactic.Ring

/-! # Lemmas about trees -/

namespace Tree
open Cpp Spec

/-! ### parent links -/

section
variable {par : Nat → Option Nat}

theorem up_add (par : Nat → Option Nat) (a b x : Nat) : up par (a + b) x = (up par a x).bind (up par b) := by
  induction a generalizing x with
  | zero => simp [up]
  | succ a ih =>
    rw [show a + 1 + b = (a + b) + 1 by omega]
    simp only [up]
    cases h : par x with
    | none => simp
    | some p => simp [ih]

theorem up_of_add {a b x z : Nat} (h : up par (a + b) x = some z) : ∃ w, up par a x = some w ∧ up par b w = some z := by
  rw [up_add] at h
  cases hw : up par a x with
  | none => rw [hw] at h; simp at h
  | some w => rw [hw] at h; exact ⟨w, rfl, h⟩

theorem up_root {r : Nat} (hr : par r = none) {k z : Nat} (h : up par k r = some z) : k = 0 := by
  cases k with
  | zero => rfl
  | succ k => simp [up, hr] at h

theorem depth_unique {r x d e : Nat} (hr : par r = none) (h1 : Depth par r x d) (h2 : Depth par r x e) : d = e := by
  unfold Depth at *
  rcases Nat.le_total d e with h | h
  · obtain ⟨k, rfl⟩ := Nat.exists_eq_add_of_le h
    obtain ⟨w, e1, e2⟩ := up_of_add h2
    rw [h1] at e1
    injection e1 with e1
    subst e1
    have := up_root hr e2
    omega
  · obtain ⟨k, rfl⟩ := Nat.exists_eq_add_of_le h
    obtain ⟨w, e1, e2⟩ := up_of_add h1
    rw [h2] at e1
    injection e1 with e1
    subst e1
    have := up_root hr e2
    omega

/-- within the depth the ancestor exists, and its depth is known -/
theorem up_some {r x d k : Nat} (h : Depth par r x d) (hk : k ≤ d) :
    ∃ z, up par k x = some z ∧ Depth par r z (d - k) := by
  obtain ⟨m, rfl⟩ := Nat.exists_eq_add_of_le hk
  obtain ⟨w, e1, e2⟩ := up_of_add h
  exact ⟨w, e1, by simpa [Depth] using e2⟩

theorem up_none {r x d k : Nat} (hr : par r = none) (h : Depth par r x d) (hk : d < k) : up par k x = none := by
  obtain ⟨m, rfl⟩ := Nat.exists_eq_add_of_lt hk
  rw [show d + m + 1 = d + (m + 1) by omega, up_add, h]
  simp [up, hr]

theorem up_le {r x d k z : Nat} (hr : par r = none) (h : Depth par r x d) (hz : up par k x = some z) :
    k ≤ d ∧ Depth par r z (d - k) := by
  by_cases hk : k ≤ d
  · obtain ⟨w, e1, e2⟩ := up_some h hk
    rw [hz] at e1; injection e1 with e1; subst e1
    exact ⟨hk, e2⟩
  · rw [up_none hr h (by omega)] at hz; cases hz

end

/-! ### `addNode` -/

/-- What the heap says about a node. -/
structure Rep (par : Nat → Option Nat) (r : Nat) (h : Heap) (x : Nat) : Prop where
  ex : ∃ nd d, h x = some nd ∧ Depth par r x d ∧ nd.height = some (d : Int) ∧ nd.fa = par x ∧
    ∀ i, nd.ancestor[i]? = up par (2 ^ i) x

theorem Rep.congr {par : Nat → Option Nat} {r : Nat} {h h' : Heap} {x : Nat} (H : Rep par r h x)
    (e : ∀ nd, h x = some nd → ∃ s, h' x = some { nd with son := s }) : Rep par r h' x := by
  obtain ⟨nd, d, h1, h2, h3, h4, h5⟩ := H.ex
  obtain ⟨s, hs⟩ := e nd h1
  exact ⟨⟨_, d, hs, h2, h3, h4, h5⟩⟩

/-- The whole tree. -/
structure TInv (par : Nat → Option Nat) (r : Nat) (N : List Nat) (h : Heap) : Prop where
  root : par r = none
  rep : ∀ x ∈ N, Rep par r h x
  closed : ∀ x ∈ N, ∀ p, par x = some p → p ∈ N

theorem TInv.up_mem {par : Nat → Option Nat} {r : Nat} {N : List Nat} {h : Heap} (H : TInv par r N h) :
    ∀ (k x z : Nat), x ∈ N → up par k x = some z → z ∈ N := by
  intro k
  induction k with
  | zero => intro x z hx e; simp [up] at e; exact e ▸ hx
  | succ k ih =>
    intro x z hx e
    simp only [up] at e
    cases hp : par x with
    | none => rw [hp] at e; simp at e
    | some p => rw [hp] at e; exact ih p z (H.closed x hx p hp) e

theorem deref_ok {h : Heap} {p : Nat} {nd : Nd} (e : h p = some nd) : deref h p = .ok nd := by simp [deref, e]

theorem store_self (h : Heap) (p : Nat) (nd : Nd) : store h p nd p = some nd := by simp [store]

theorem store_ne (h : Heap) {p q : Nat} (nd : Nd) (e : q ≠ p) : store h p nd q = h q := by simp [store, e]

theorem ancAt_ok {nd : Nd} {i p : Nat} (e : nd.ancestor[i]? = some p) : ancAt nd i = .ok p := by simp [ancAt, e]

/-- the loop filling in the ancestors of a fresh leaf -/
theorem fill_ok {par : Nat → Option Nat} {r node d : Nat} {N : List Nat} (hr : par r = none)
    (hd : Depth par r node d) (hN : ∀ k z, 1 ≤ k → up par k node = some z → z ∈ N ∧ z ≠ node) :
    ∀ (n i : Nat) (h : Heap) (nd : Nd) (fuel : Nat), d < 2 ^ i + n → 2 ^ i ≤ d → n < fuel →
      (∀ x ∈ N, x ≠ node → Rep par r h x) →
      h node = some nd → nd.ancestor.length = i + 1 → (∀ j ≤ i, nd.ancestor[j]? = up par (2 ^ j) node) →
      ∃ nd', fillAncestors h node fuel i = .ok (store h node nd') ∧ nd'.fa = nd.fa ∧ nd'.height = nd.height ∧
        ∀ j, nd'.ancestor[j]? = up par (2 ^ j) node := by
  intro n
  induction n with
  | zero => intro i h nd fuel h1 h2; omega
  | succ n ih =>
    intro i h nd fuel h1 h2 hf hrep hnode hlen hanc
    obtain ⟨fuel, rfl⟩ : ∃ k, fuel = k + 1 := ⟨fuel - 1, by omega⟩
    obtain ⟨z, hz, hzd⟩ := up_some hd h2
    obtain ⟨hzN, hzne⟩ := hN _ z Nat.one_le_two_pow hz
    obtain ⟨nz, e, hz1, hz2, hz3, hz4, hz5⟩ := (hrep z hzN hzne).ex
    have hpow : 2 ^ (i + 1) = 2 ^ i + 2 ^ i := by rw [pow_succ]; ring
    have hup : up par (2 ^ i) z = up par (2 ^ (i + 1)) node := by rw [hpow, up_add, hz]; rfl
    rw [fillAncestors, deref_ok hnode, Out.ok_bind, ancAt_ok ((hanc i (le_refl i)).trans hz), Out.ok_bind,
      deref_ok hz1, Out.ok_bind]
    have hz5i := hz5 i
    rw [hup] at hz5i
    by_cases hle : nz.ancestor.length ≤ i
    · rw [if_pos hle]
      have hnone : up par (2 ^ (i + 1)) node = none := by
        rw [← hz5i]; exact List.getElem?_eq_none hle
      refine ⟨nd, ?_, rfl, rfl, fun j => ?_⟩
      · congr 1; funext q; by_cases e : q = node
        · rw [e, store_self, hnode]
        · rw [store_ne _ _ e]
      · by_cases hj : j ≤ i
        · exact hanc j hj
        · rw [List.getElem?_eq_none (by omega)]
          symm
          have : d < 2 ^ (i + 1) := by
            by_contra hc
            obtain ⟨w, hw, _⟩ := up_some hd (k := 2 ^ (i + 1)) (by omega)
            rw [hnone] at hw; cases hw
          exact up_none hr hd (lt_of_lt_of_le this (Nat.pow_le_pow_right (by omega) (by omega)))
    · rw [if_neg hle]
      obtain ⟨w, hw⟩ : ∃ w, nz.ancestor[i]? = some w := ⟨_, List.getElem?_eq_getElem (by omega)⟩
      rw [ancAt_ok hw, Out.ok_bind]
      have hw' : up par (2 ^ (i + 1)) node = some w := by rw [← hz5i]; exact hw
      have hle' := (up_le hr hd hw').1
      have hp := Nat.two_pow_pos i
      obtain ⟨nd', e1, e2, e3, e4⟩ := ih (i + 1) (store h node { nd with ancestor := nd.ancestor ++ [w] })
        { nd with ancestor := nd.ancestor ++ [w] } fuel (by omega) hle' (by omega)
        (fun x hx hne => (hrep x hx hne).congr fun nd hnd => ⟨nd.son, by rw [store_ne _ _ hne, hnd]⟩)
        (store_self _ _ _) (by simp [hlen])
        (fun j hj => by
          dsimp only
          by_cases hji : j ≤ i
          · rw [List.getElem?_append_left (by omega)]; exact hanc j hji
          · have : j = i + 1 := by omega
            subst this
            rw [List.getElem?_append_right (by omega), hlen, hw']; simp)
      refine ⟨nd', ?_, e2, e3, e4⟩
      rw [e1]
      congr 1
      funext q
      by_cases e : q = node
      · rw [e, store_self, store_self]
      · rw [store_ne _ _ e, store_ne _ _ e, store_ne _ _ e]

theorem parentOf_append {adds : List (Nat × Nat)} {r x p y : Nat} (hx : x ∉ nodes r adds) :
    parentOf (adds ++ [(x, p)]) y = if y = x then some p else parentOf adds y := by
  unfold parentOf
  rw [List.find?_append]
  by_cases e : y = x
  · subst e
    have : adds.find? (fun a => decide (a.1 = y)) = none := by
      rw [List.find?_eq_none]
      intro a ha
      simp only [decide_eq_true_eq]
      rintro rfl
      exact hx (by simp [nodes]; exact .inr ⟨_, ha⟩)
    rw [this, if_pos rfl]; simp
  · rw [if_neg e]
    cases h : adds.find? (fun a => decide (a.1 = y)) with
    | some a => simp
    | none => simp [Ne.symm e]

theorem parent_mem {r : Nat} {adds : List (Nat × Nat)} (h : Built r adds) :
    parentOf adds r = none ∧ ∀ x p, parentOf adds x = some p → x ∈ nodes r adds ∧ p ∈ nodes r adds := by
  induction h with
  | root => exact ⟨rfl, fun x p h => by simp [parentOf] at h⟩
  | @add adds x p hb hx hp ih =>
    have sub : ∀ z, z ∈ nodes r adds → z ∈ nodes r (adds ++ [(x, p)]) := by
      intro z hz; simp [nodes] at hz ⊢; rcases hz with h | ⟨w, h⟩
      · exact .inl h
      · exact .inr (.inl ⟨w, h⟩)
    refine ⟨?_, fun y q h => ?_⟩
    · rw [parentOf_append hx, if_neg (by rintro rfl; exact hx (by simp [nodes])), ih.1]
    · rw [parentOf_append hx] at h
      split at h
      · rename_i e; injection h with h; subst h e
        exact ⟨by simp [nodes], sub _ hp⟩
      · obtain ⟨a, b⟩ := ih.2 y q h
        exact ⟨sub _ a, sub _ b⟩

/-- parent steps inside the old tree are not affected by a new leaf -/
theorem up_append {r : Nat} {adds : List (Nat × Nat)} (hb : Built r adds) {x p : Nat} (hx : x ∉ nodes r adds) :
    ∀ (k y : Nat), y ∈ nodes r adds → up (parentOf (adds ++ [(x, p)])) k y = up (parentOf adds) k y := by
  intro k
  induction k with
  | zero => intro y _; rfl
  | succ k ih =>
    intro y hy
    simp only [up]
    rw [parentOf_append hx, if_neg (by rintro rfl; exact hx hy)]
    cases h : parentOf adds y with
    | none => rfl
    | some q => simp only [Option.bind_some]; exact ih q ((parent_mem hb).2 y q h).2

/-- objects just constructed -/
def Fresh (h : Heap) (x : Nat) : Prop := ∃ id val, h x = some (mkNode id val)

theorem depth_le_length {r : Nat} {adds : List (Nat × Nat)} (hb : Built r adds) :
    ∀ x ∈ nodes r adds, ∀ d, Depth (parentOf adds) r x d → d ≤ adds.length := by
  induction hb with
  | root =>
    intro x hx d hd
    simp [nodes] at hx
    subst hx
    have := up_root (par := parentOf []) rfl hd
    simp [this]
  | @add adds x p hb hx hp ih =>
    intro y hy d hd
    by_cases e : y = x
    · subst e
      cases d with
      | zero => simp
      | succ d =>
        unfold Depth at hd
        simp only [up] at hd
        rw [parentOf_append hx, if_pos rfl] at hd
        simp only [Option.bind_some] at hd
        rw [up_append hb hx _ _ hp] at hd
        have := ih p hp d hd
        simp; omega
    · have hy' : y ∈ nodes r adds := by
        simp [nodes] at hy ⊢
        rcases hy with h | h | h
        · exact .inl h
        · exact .inr h
        · exact absurd h e
      unfold Depth at hd
      rw [up_append hb hx _ _ hy'] at hd
      have := ih y hy' d hd
      simp; omega

theorem addNode_ok {r : Nat} {adds : List (Nat × Nat)} (hb : Built r adds) {x p fuel : Nat} (hx : x ∉ nodes r adds)
    (hp : p ∈ nodes r adds) {h : Heap} (H : TInv (parentOf adds) r (nodes r adds) h) (hf : Fresh h x)
    (hlen : adds.length < 2 ^ 30) (hfuel : adds.length + 1 < fuel) :
    ∃ h', addNode fuel h x p = .ok h' ∧
      TInv (parentOf (adds ++ [(x, p)])) r (nodes r (adds ++ [(x, p)])) h' ∧
      ∀ y, y ∉ nodes r (adds ++ [(x, p)]) → h' y = h y := by
  obtain ⟨id, val, hx0⟩ := hf
  have hxp : x ≠ p := by rintro rfl; exact hx hp
  obtain ⟨np, d, p1, p2, p3, p4, p5⟩ := (H.rep p hp).ex
  have hdl := depth_le_length hb p hp d p2
  have hparx : parentOf (adds ++ [(x, p)]) x = some p := by rw [parentOf_append hx, if_pos rfl]
  have hupold := up_append hb (p := p) hx
  have hroot : parentOf (adds ++ [(x, p)]) r = none := by
    rw [parentOf_append hx, if_neg (by rintro rfl; exact hx (by simp [nodes])), H.root]
  have hdx : Depth (parentOf (adds ++ [(x, p)])) r x (d + 1) := by
    unfold Depth
    simp only [up]
    rw [hparx]
    exact (hupold d p hp).trans p2
  have old : ∀ h' : Heap, (∀ y ∈ nodes r adds, ∀ nd, h y = some nd → ∃ s, h' y = some { nd with son := s }) →
      ∀ y ∈ nodes r adds, Rep (parentOf (adds ++ [(x, p)])) r h' y := by
    intro h' hh y hy
    obtain ⟨nd, e, y1, y2, y3, y4, y5⟩ := (H.rep y hy).ex
    obtain ⟨s, hs⟩ := hh y hy nd y1
    refine ⟨⟨_, e, hs, (hupold _ y hy).trans y2, y3, ?_, fun i => (y5 i).trans (hupold _ y hy).symm⟩⟩
    rw [parentOf_append hx, if_neg (by rintro rfl; exact hx hy)]; exact y4
  obtain ⟨h2, hadd, hh2x, hh2p, hh2o⟩ : ∃ h2, addNode fuel h x p = fillAncestors h2 x fuel 0 ∧
      h2 x = some { mkNode id val with fa := some p, height := some ((d : Int) + 1), ancestor := [p] } ∧
      h2 p = some { np with son := np.son ++ [x] } ∧ ∀ q, q ≠ x → q ≠ p → h2 q = h q := by
    obtain ⟨f0, s0, i0, v0, t0, a0⟩ := np
    dsimp only at p3
    subst p3
    unfold addNode
    rw [deref_ok p1, Out.ok_bind]
    dsimp only
    rw [deref_ok ((store_ne _ _ hxp).trans hx0), Out.ok_bind]
    unfold getHeight
    rw [deref_ok ((store_ne _ _ hxp.symm).trans (store_self _ _ _)), Out.ok_bind]
    dsimp only
    rw [Out.ok_bind, int_ok (by unfold IsInt INT_MIN INT_MAX; omega), Out.ok_bind, deref_ok (store_self _ _ _),
      Out.ok_bind, deref_ok (store_self _ _ _), Out.ok_bind]
    refine ⟨_, rfl, ?_, ?_, fun q q1 q2 => ?_⟩
    · rw [store_self]; rfl
    · rw [store_ne _ _ hxp.symm, store_ne _ _ hxp.symm, store_ne _ _ hxp.symm, store_self]
    · rw [store_ne _ _ q1, store_ne _ _ q1, store_ne _ _ q1, store_ne _ _ q2]
  have hson : ∀ y ∈ nodes r adds, ∀ nd, h y = some nd → ∃ s, h2 y = some { nd with son := s } := by
    intro y hy nd hnd
    have hyx : y ≠ x := by rintro rfl; exact hx hy
    by_cases e : y = p
    · subst e; rw [p1] at hnd; injection hnd with hnd; subst hnd; exact ⟨_, hh2p⟩
    · exact ⟨nd.son, by rw [hh2o y hyx e, hnd]⟩
  have hup1 : up (parentOf (adds ++ [(x, p)])) 1 x = some p := by simp [up, hparx]
  obtain ⟨nd', f1, f2, f3, f4⟩ := fill_ok (N := nodes r adds) hroot hdx
    (fun k z hk hz => by
      obtain ⟨k, rfl⟩ : ∃ m, k = m + 1 := ⟨k - 1, by omega⟩
      simp only [up] at hz
      rw [hparx] at hz
      simp only [Option.bind_some] at hz
      rw [hupold k p hp] at hz
      have := H.up_mem k p z hp hz
      exact ⟨this, by rintro rfl; exact hx this⟩)
    (d + 1) 0 h2 _ fuel (by simp) (by simp) (by omega) (fun y hy _ => old h2 hson y hy) hh2x (by simp)
    (fun j hj => by
      have : j = 0 := by omega
      subst this
      simpa using hup1.symm)
  refine ⟨_, hadd.trans f1, ⟨hroot, fun y hy => ?_, fun y hy q hq => ?_⟩, fun y hy => ?_⟩
  · by_cases e : y = x
    · subst e
      exact ⟨⟨nd', d + 1, store_self _ _ _, hdx, by rw [f3]; push_cast; rfl, by rw [f2, hparx], f4⟩⟩
    · have hy' : y ∈ nodes r adds := by
        simp [nodes] at hy ⊢
        rcases hy with h | h | h
        · exact .inl h
        · exact .inr h
        · exact absurd h e
      refine old _ (fun y hy nd hnd => ?_) y hy'
      rw [store_ne _ _ (by intro e; exact hx (e ▸ hy))]
      exact hson y hy nd hnd
  · exact ((parent_mem (Built.add hb hx hp)).2 y q hq).2
  · have hyx : y ≠ x := by rintro rfl; exact hy (by simp [nodes])
    have hyp : y ≠ p := by
      rintro rfl; apply hy
      simp [nodes] at hp ⊢
      rcases hp with h | ⟨w, h⟩
      · exact .inl h
      · exact .inr (.inl ⟨w, h⟩)
    rw [store_ne _ _ hyx, hh2o y hyx hyp]

theorem run_ok {r : Nat} {adds : List (Nat × Nat)} (hb : Built r adds) {fuel : Nat} {h : Heap}
    (hf : ∀ x ∈ nodes r adds, Fresh h x) (hlen : adds.length ≤ 2 ^ 30) (hfuel : adds.length < fuel) :
    ∃ h', run fuel h r adds = .ok h' ∧ TInv (parentOf adds) r (nodes r adds) h' ∧
      ∀ y, y ∉ nodes r adds → h' y = h y := by
  induction hb with
  | root =>
    obtain ⟨id, val, h0⟩ := hf r (by simp [nodes])
    unfold run setRoot
    rw [deref_ok h0, Out.ok_bind, Out.ok_bind]
    refine ⟨_, rfl, ⟨rfl, fun x hx => ?_, fun x _ p hp => by simp [parentOf] at hp⟩, fun y hy => ?_⟩
    · simp [nodes] at hx
      subst hx
      refine ⟨⟨_, 0, store_self _ _ _, rfl, rfl, rfl, fun i => ?_⟩⟩
      obtain ⟨k, hk⟩ : ∃ k, 2 ^ i = k + 1 := ⟨2 ^ i - 1, by have := Nat.two_pow_pos i; omega⟩
      rw [hk]; rfl
    · simp [nodes] at hy
      exact store_ne _ _ hy
  | @add adds x p hb hx hp ih =>
    have hs : ∀ z, z ∈ nodes r adds → z ∈ nodes r (adds ++ [(x, p)]) := by
      intro z hz; simp [nodes] at hz ⊢; rcases hz with h | ⟨w, h⟩
      · exact .inl h
      · exact .inr (.inl ⟨w, h⟩)
    simp at hlen hfuel
    obtain ⟨h', e, H, fr⟩ := ih (fun z hz => hf z (hs z hz)) (by omega) (by omega)
    have hfx : Fresh h' x := by
      obtain ⟨id, val, hx0⟩ := hf x (by simp [nodes])
      exact ⟨id, val, by rw [fr x hx, hx0]⟩
    obtain ⟨h'', e', H', fr'⟩ := addNode_ok hb hx hp H hfx (by omega) (by omega)
    refine ⟨h'', ?_, H', fun y hy => by rw [fr' y hy, fr y fun q => hy (hs y q)]⟩
    unfold run at e ⊢
    obtain ⟨h0, e0, e1⟩ := Out.bind_eq_ok.1 e
    rw [e0, Out.ok_bind, List.foldlM_append, e1, Out.ok_bind, List.foldlM_cons, e', Out.ok_bind]
    rfl

/-! ### `getAncestor` -/

section
variable {par : Nat → Option Nat} {r : Nat} {N : List Nat} {h : Heap}

theorem TInv.get (H : TInv par r N h) {x : Nat} (hx : x ∈ N) :
    ∃ nd d, h x = some nd ∧ Depth par r x d ∧ nd.height = some (d : Int) ∧ nd.fa = par x ∧
      ∀ i, nd.ancestor[i]? = up par (2 ^ i) x := (H.rep x hx).ex

theorem TInv.ancAt (H : TInv par r N h) {x : Nat} (hx : x ∈ N) (i : Nat) :
    (do ancAt (← deref h x) i) = match up par (2 ^ i) x with | some z => Out.ok z | none => .ub := by
  obtain ⟨nd, d, h1, h2, h3, h4, h5⟩ := H.get hx
  rw [deref_ok h1, Out.ok_bind, Tree.ancAt, h5 i]
  cases up par (2 ^ i) x <;> rfl

theorem mod_two_pow_succ (x i : Nat) : x % 2 ^ (i + 1) = x % 2 ^ i + 2 ^ i * (x.testBit i).toNat := by
  rw [pow_succ, Nat.mod_mul, Nat.toNat_testBit]

theorem climb_ok (H : TInv par r N h) {x level : Nat} (hx : x ∈ N) (hl : level < 2 ^ 30) :
    ∀ n ≤ 30, ∀ cur, up par (level % 2 ^ (30 - n)) x = some cur →
      climb h level (n + 1) cur = match up par level x with | some z => Out.ok z | none => .ub := by
  intro n
  induction n with
  | zero =>
    intro _ cur hc
    rw [climb, if_neg (by
      have : ((level : Nat) : Int) < ((2 ^ 30 : Nat) : Int) := by exact_mod_cast hl
      push_cast at this ⊢; simpa using this)]
    rw [Nat.mod_eq_of_lt hl] at hc
    rw [hc]
  | succ n ih =>
    intro hn cur hc
    rw [climb]
    set i := 30 - (n + 1) with hi
    have hi' : 30 - n = i + 1 := by omega
    by_cases c : 2 ^ i ≤ level
    · have c' : (level : Int) ≥ 2 ^ i := by exact_mod_cast c
      rw [if_pos c']
      have hcm := H.up_mem _ x cur hx hc
      have hmod := mod_two_pow_succ level i
      simp only [Int.toNat_natCast]
      by_cases b : level.testBit i = true
      · rw [if_pos b, H.ancAt hcm i]
        rw [b] at hmod
        simp only [Bool.toNat_true, Nat.mul_one] at hmod
        have hup : up par (2 ^ i) cur = up par (level % 2 ^ (i + 1)) x := by rw [hmod, up_add, hc]; rfl
        rw [hup]
        cases hz : up par (level % 2 ^ (i + 1)) x with
        | some z =>
          simp only [Out.ok_bind]
          exact ih (by omega) z (by rw [hi']; exact hz)
        | none =>
          have : up par level x = none := by
            have hle : level % 2 ^ (i + 1) ≤ level := Nat.mod_le _ _
            obtain ⟨m, hm⟩ := Nat.exists_eq_add_of_le hle
            rw [hm, up_add, hz]; rfl
          rw [this]; rfl
      · rw [if_neg b, Out.ok_bind]
        have b' : level.testBit i = false := by simpa using b
        rw [b'] at hmod
        simp only [Bool.toNat_false, Nat.mul_zero, Nat.add_zero] at hmod
        exact ih (by omega) cur (by rw [hi', hmod]; exact hc)
    · have c' : ¬ (level : Int) ≥ 2 ^ i := by
        intro h'; exact c (by exact_mod_cast h')
      rw [if_neg c']
      rw [Nat.mod_eq_of_lt (by omega)] at hc
      rw [hc]

theorem getAncestor_eq (H : TInv par r N h) {x level : Nat} (hx : x ∈ N) (hl : level < 2 ^ 30) :
    getAncestor h x level = match up par level x with | some z => Out.ok z | none => .ub :=
  climb_ok H hx hl 30 (le_refl 30) x (by simp [up, Nat.mod_one])

/-! ### `LCA` -/

theorem getHeight_ok (H : TInv par r N h) {x d : Nat} (hx : x ∈ N) (hd : Depth par r x d) :
    getHeight h x = .ok (d : Int) := by
  obtain ⟨nd, e, h1, h2, h3, _⟩ := H.get hx
  unfold getHeight
  rw [deref_ok h1, Out.ok_bind, h3, depth_unique H.root hd h2]

/-- two nodes at the same depth: where their paths meet -/
theorem meet {x y d : Nat} (hx : Depth par r x d) (hy : Depth par r y d) :
    ∃ k, k ≤ d ∧ (∀ i, up par i x = up par i y ↔ k ≤ i) := by
  classical
  have hex : ∃ k, up par k x = up par k y := ⟨d, hx.trans hy.symm⟩
  have mono : ∀ i j, up par i x = up par i y → i ≤ j → up par j x = up par j y := by
    intro i j e hij
    obtain ⟨m, rfl⟩ := Nat.exists_eq_add_of_le hij
    rw [up_add, up_add, e]
  refine ⟨Nat.find hex, Nat.find_min' hex (hx.trans hy.symm), fun i => ⟨fun e => Nat.find_min' hex e, fun e =>
    mono _ _ (Nat.find_spec hex) e⟩⟩

theorem lca_loop (H : TInv par r N h) {x y d k : Nat} (hx : x ∈ N) (hy : y ∈ N) (hdx : Depth par r x d)
    (hdy : Depth par r y d) (hk1 : 1 ≤ k) (hk : ∀ i, up par i x = up par i y ↔ k ≤ i) :
    ∀ (S c xc yc : Nat), up par c x = some xc → up par c y = some yc → c + (k - 1) % 2 ^ S = k - 1 →
      ((∀ i < S, 2 ^ i + (k - 1) ≤ d + (k - 1) % 2 ^ (i + 1)) →
        ∃ u v, (List.range S).reverse.foldlM (lcaStep h) (xc, yc) = .ok (u, v) ∧ up par (k - 1) x = some u) ∧
      (¬ (∀ i < S, 2 ^ i + (k - 1) ≤ d + (k - 1) % 2 ^ (i + 1)) →
        (List.range S).reverse.foldlM (lcaStep h) (xc, yc) = .ub) := by
  intro S
  induction S with
  | zero =>
    intro c xc yc h1 h2 h3
    refine ⟨fun _ => ⟨xc, yc, rfl, ?_⟩, fun hn => absurd (fun i hi => by omega) hn⟩
    simp [Nat.mod_one] at h3
    rw [← h3]; exact h1
  | succ S ih =>
    intro c xc yc h1 h2 h3
    rw [List.range_succ, List.reverse_append, List.reverse_singleton, List.singleton_append, List.foldlM_cons]
    have hxm := H.up_mem _ _ _ hx h1
    have hym := H.up_mem _ _ _ hy h2
    have hmod := mod_two_pow_succ (k - 1) S
    have hstep : lcaStep h (xc, yc) S = (match up par (c + 2 ^ S) x, up par (c + 2 ^ S) y with
        | some a, some b => if a ≠ b then Out.ok (a, b) else .ok (xc, yc)
        | _, _ => .ub) := by
      have e1 := H.ancAt hxm S
      have e2 := H.ancAt hym S
      obtain ⟨nx, _, x1, _⟩ := H.get hxm
      obtain ⟨ny, _, y1, _⟩ := H.get hym
      rw [deref_ok x1, Out.ok_bind] at e1
      rw [deref_ok y1, Out.ok_bind] at e2
      unfold lcaStep
      dsimp only
      rw [deref_ok x1, Out.ok_bind, e1, up_add, h1, up_add, h2]
      simp only [Option.bind_some]
      cases up par (2 ^ S) xc with
      | none => rfl
      | some a =>
        simp only [Out.ok_bind]
        rw [deref_ok y1, Out.ok_bind, e2]
        cases up par (2 ^ S) yc with
        | none => rfl
        | some b => simp only [Out.ok_bind]
    by_cases safe : c + 2 ^ S ≤ d
    · obtain ⟨a, ha, _⟩ := up_some hdx safe
      obtain ⟨b, hb, _⟩ := up_some hdy safe
      rw [hstep, ha, hb]
      dsimp only
      have hab : a = b ↔ k ≤ c + 2 ^ S := by
        rw [← hk, ha, hb]; exact ⟨fun e => by rw [e], fun e => by injection e⟩
      have cond : (∀ i < S + 1, 2 ^ i + (k - 1) ≤ d + (k - 1) % 2 ^ (i + 1)) ↔
          ∀ i < S, 2 ^ i + (k - 1) ≤ d + (k - 1) % 2 ^ (i + 1) := by
        refine ⟨fun q i hi => q i (by omega), fun q i hi => ?_⟩
        by_cases e : i = S
        · subst e; omega
        · exact q i (by omega)
      rw [cond]
      by_cases e : a = b
      · rw [if_neg (by simpa using e), Out.ok_bind]
        have hke := hab.1 e
        refine ih c xc yc h1 h2 ?_
        cases hbit : (k - 1).testBit S with
        | false => rw [hbit] at hmod; simp at hmod; omega
        | true =>
          rw [hbit] at hmod; simp at hmod
          omega
      · rw [if_pos e, Out.ok_bind]
        have hke : ¬ k ≤ c + 2 ^ S := fun q => e (hab.2 q)
        refine ih (c + 2 ^ S) a b ha hb ?_
        have hlt := Nat.mod_lt (k - 1) (Nat.two_pow_pos S)
        cases hbit : (k - 1).testBit S with
        | false => rw [hbit] at hmod; simp at hmod; omega
        | true => rw [hbit] at hmod; simp at hmod; omega
    · rw [hstep, up_none H.root hdx (by omega)]
      refine ⟨fun q => ?_, fun _ => rfl⟩
      have := q S (by omega)
      omega

/-- the number of stored ancestors -/
theorem anc_length (H : TInv par r N h) {x d : Nat} (hx : x ∈ N) (hd : Depth par r x d) {nd : Nd}
    (hnd : h x = some nd) (i : Nat) : i < nd.ancestor.length ↔ 2 ^ i ≤ d := by
  obtain ⟨nd', e, h1, h2, _, _, h5⟩ := H.get hx
  rw [hnd] at h1; injection h1 with h1; subst h1
  have := h5 i
  constructor
  · intro hi
    rw [List.getElem?_eq_getElem hi] at this
    exact (up_le H.root hd this.symm).1
  · intro hi
    obtain ⟨z, hz, _⟩ := up_some hd hi
    rw [hz] at this
    exact (List.getElem?_eq_some_iff.1 this).1

/-- `LCA` after lifting: two nodes at the same depth -/
theorem lca_same (H : TInv par r N h) {x y d : Nat} (hx : x ∈ N) (hy : y ∈ N) (hdx : Depth par r x d)
    (hdy : Depth par r y d) (hne : x ≠ y) :
    ∃ k a, 1 ≤ k ∧ k ≤ d ∧ up par k x = some a ∧ up par k y = some a ∧ (∀ i, up par i x = up par i y ↔ k ≤ i) ∧
      ((∀ i, 2 ^ i ≤ d → 2 ^ i + (k - 1) ≤ d + (k - 1) % 2 ^ (i + 1)) → (do
        let nx ← deref h x
        let (x, _) ← (List.range nx.ancestor.length).reverse.foldlM (lcaStep h) (x, y)
        .ok (← deref h x).fa) = Out.ok (some a)) ∧
      (¬ (∀ i, 2 ^ i ≤ d → 2 ^ i + (k - 1) ≤ d + (k - 1) % 2 ^ (i + 1)) → (do
        let nx ← deref h x
        let (x, _) ← (List.range nx.ancestor.length).reverse.foldlM (lcaStep h) (x, y)
        .ok (← deref h x).fa) = Out.ub) := by
  obtain ⟨k, hkd, hk⟩ := meet hdx hdy
  have hk1 : 1 ≤ k := by
    by_contra hc
    have : k = 0 := by omega
    have := (hk 0).2 (by omega)
    simp [up] at this
    exact hne this
  obtain ⟨a, ha, _⟩ := up_some hdx hkd
  have ha' := (hk k).2 (le_refl k)
  rw [ha] at ha'
  refine ⟨k, a, hk1, hkd, ha, ha'.symm, hk, ?_⟩
  obtain ⟨nx, e, x1, _⟩ := H.get hx
  rw [deref_ok x1, Out.ok_bind]
  have hS := anc_length H hx hdx x1
  have hlt : k - 1 < 2 ^ nx.ancestor.length := by
    have : ¬ 2 ^ nx.ancestor.length ≤ d := fun q => by have := (hS _).2 q; omega
    omega
  have key := lca_loop H hx hy hdx hdy hk1 hk nx.ancestor.length 0 x y rfl rfl
    (by rw [Nat.mod_eq_of_lt hlt]; omega)
  have cond : (∀ i, 2 ^ i ≤ d → 2 ^ i + (k - 1) ≤ d + (k - 1) % 2 ^ (i + 1)) ↔
      ∀ i < nx.ancestor.length, 2 ^ i + (k - 1) ≤ d + (k - 1) % 2 ^ (i + 1) :=
    ⟨fun q i hi => q i ((hS i).1 hi), fun q i hi => q i ((hS i).2 hi)⟩
  refine ⟨fun c => ?_, fun c => ?_⟩
  · obtain ⟨u, v, e, hu⟩ := key.1 (cond.1 c)
    rw [e, Out.ok_bind]
    dsimp only
    obtain ⟨nu, _, u1, _, _, u4, _⟩ := H.get (H.up_mem _ _ _ hx hu)
    rw [deref_ok u1, Out.ok_bind, u4]
    have : up par (k - 1 + 1) x = par u := by rw [up_add, hu]; simp [up]
    rw [show k - 1 + 1 = k by omega, ha] at this
    rw [← this]
  · rw [key.2 fun q => c (cond.2 q)]
    rfl

theorem isLCA_self (x : Nat) : IsLCA par x x x := ⟨⟨0, rfl⟩, ⟨0, rfl⟩, fun _ h _ => h⟩

theorem isLCA_meet (hr : par r = none) {x y d k a : Nat} (hdx : Depth par r x d) (hdy : Depth par r y d)
    (hax : up par k x = some a) (hay : up par k y = some a) (hk : ∀ i, up par i x = up par i y ↔ k ≤ i) :
    IsLCA par a x y := by
  refine ⟨⟨k, hax⟩, ⟨k, hay⟩, fun b ⟨i, hi⟩ ⟨j, hj⟩ => ?_⟩
  obtain ⟨i1, i2⟩ := up_le hr hdx hi
  obtain ⟨j1, j2⟩ := up_le hr hdy hj
  have := depth_unique hr i2 j2
  have hij : i = j := by omega
  subst hij
  have := (hk i).1 (hi.trans hj.symm)
  obtain ⟨m, rfl⟩ := Nat.exists_eq_add_of_le this
  obtain ⟨w, w1, w2⟩ := up_of_add hi
  rw [hax] at w1; injection w1 with w1; subst w1
  exact ⟨m, w2⟩

theorem isLCA_lift (hr : par r = none) {x y x' a dx dy : Nat} (hdx : Depth par r x dx) (hdy : Depth par r y dy)
    (hle : dy ≤ dx) (hx' : up par (dx - dy) x = some x') (h : IsLCA par a x' y) : IsLCA par a x y := by
  obtain ⟨⟨i, hi⟩, h2, h3⟩ := h
  refine ⟨⟨dx - dy + i, by rw [up_add, hx']; exact hi⟩, h2, fun b ⟨m, hm⟩ hb => h3 b ?_ hb⟩
  obtain ⟨j, hj⟩ := hb
  obtain ⟨m1, m2⟩ := up_le hr hdx hm
  obtain ⟨j1, j2⟩ := up_le hr hdy hj
  have := depth_unique hr m2 j2
  obtain ⟨q, hq⟩ : ∃ q, m = (dx - dy) + q := ⟨m - (dx - dy), by omega⟩
  rw [hq] at hm
  obtain ⟨w, w1, w2⟩ := up_of_add hm
  rw [hx'] at w1; injection w1 with w1; subst w1
  exact ⟨q, w2⟩

theorem isLCA_symm {a x y : Nat} (h : IsLCA par a x y) : IsLCA par a y x :=
  ⟨h.2.1, h.1, fun b h1 h2 => h.2.2 b h2 h1⟩

/-- the part of `LCA` after lifting -/
def lcaTail (h : Heap) (x y : Nat) : Out (Option Nat) :=
  if x = y then .ok (some x) else do
  let nx ← deref h x
  let (x, _) ← (List.range nx.ancestor.length).reverse.foldlM (lcaStep h) (x, y)
  .ok (← deref h x).fa

theorem lcaTail_ok (H : TInv par r N h) {x y d : Nat} (hx : x ∈ N) (hy : y ∈ N) (hdx : Depth par r x d)
    (hdy : Depth par r y d) : ∃ a L, IsLCA par a x y ∧ Depth par r a L ∧ L ≤ d ∧
      ((L = d ∨ ∀ i, 2 ^ i ≤ d → 2 ^ i ≤ L + 1 + (d - L - 1) % 2 ^ (i + 1)) → lcaTail h x y = .ok (some a)) ∧
      (¬ (L = d ∨ ∀ i, 2 ^ i ≤ d → 2 ^ i ≤ L + 1 + (d - L - 1) % 2 ^ (i + 1)) → lcaTail h x y = .ub) := by
  by_cases e : x = y
  · subst e
    refine ⟨x, d, isLCA_self x, hdx, le_refl d, fun _ => by simp [lcaTail], fun hn => absurd (.inl rfl) hn⟩
  · obtain ⟨k, a, k1, k2, k3, k4, k5, k6, k7⟩ := lca_same H hx hy hdx hdy e
    have hda := (up_le H.root hdx k3).2
    refine ⟨a, d - k, isLCA_meet H.root hdx hdy k3 k4 k5, hda, by omega, fun hc => ?_, fun hc => ?_⟩
    · unfold lcaTail
      rw [if_neg e]
      apply k6
      rcases hc with hc | hc
      · omega
      · intro i hi
        have := hc i hi
        rw [show d - (d - k) - 1 = k - 1 by omega] at this
        omega
    · unfold lcaTail
      rw [if_neg e]
      apply k7
      intro hq
      apply hc
      right
      intro i hi
      have := hq i hi
      rw [show d - (d - k) - 1 = k - 1 by omega]
      omega

theorem lca_ok (H : TInv par r N h) {x y dx dy : Nat} (hx : x ∈ N) (hy : y ∈ N) (hdx : Depth par r x dx)
    (hdy : Depth par r y dy) (hsx : dx < 2 ^ 30) (hsy : dy < 2 ^ 30) :
    ∃ a L, IsLCA par a x y ∧ Depth par r a L ∧ L ≤ min dx dy ∧
      ((L = min dx dy ∨ ∀ i, 2 ^ i ≤ min dx dy → 2 ^ i ≤ L + 1 + (min dx dy - L - 1) % 2 ^ (i + 1)) →
        lca h x y = .ok (some a)) ∧
      (¬ (L = min dx dy ∨ ∀ i, 2 ^ i ≤ min dx dy → 2 ^ i ≤ L + 1 + (min dx dy - L - 1) % 2 ^ (i + 1)) →
        lca h x y = .ub) := by
  by_cases c : dx < dy
  · obtain ⟨y', hy', hdy'⟩ := up_some hdy (k := dy - dx) (by omega)
    rw [show dy - (dy - dx) = dx by omega] at hdy'
    have e : lca h x y = lcaTail h x y' := by
      unfold lca lcaTail
      rw [getHeight_ok H hx hdx, Out.ok_bind, getHeight_ok H hy hdy, Out.ok_bind,
        if_pos (show (dx : Int) < dy by omega), int_ok (by unfold IsInt INT_MIN INT_MAX; omega), Out.ok_bind,
        show (dy : Int) - dx = ((dy - dx : Nat) : Int) by omega, getAncestor_eq H hy (by omega), hy']
      rfl
    obtain ⟨a, L, a1, a2, a3, a4, a5⟩ := lcaTail_ok H hx (H.up_mem _ _ _ hy hy') hdx hdy'
    rw [min_eq_left (by omega), e]
    exact ⟨a, L, isLCA_symm (isLCA_lift H.root hdy hdx (by omega) hy' (isLCA_symm a1)), a2, a3, a4, a5⟩
  · obtain ⟨x', hx', hdx'⟩ := up_some hdx (k := dx - dy) (by omega)
    rw [show dx - (dx - dy) = dy by omega] at hdx'
    have e : lca h x y = lcaTail h x' y := by
      unfold lca lcaTail
      rw [getHeight_ok H hx hdx, Out.ok_bind, getHeight_ok H hy hdy, Out.ok_bind,
        if_neg (show ¬ (dx : Int) < dy by omega), int_ok (by unfold IsInt INT_MIN INT_MAX; omega), Out.ok_bind,
        show (dx : Int) - dy = ((dx - dy : Nat) : Int) by omega, getAncestor_eq H hx (by omega), hx']
      rfl
    obtain ⟨a, L, a1, a2, a3, a4, a5⟩ := lcaTail_ok H (H.up_mem _ _ _ hx hx') hy hdx' hdy
    rw [min_eq_right (by omega), e]
    exact ⟨a, L, isLCA_lift H.root hdx hdy (by omega) hx' a1, a2, a3, a4, a5⟩

/-! ### distances -/

theorem walk_meet {n x y : Nat} (hw : Walk par n x y) :
    ∃ i j z, i + j ≤ n ∧ up par i x = some z ∧ up par j y = some z := by
  induction hw with
  | here x => exact ⟨0, 0, x, by omega, rfl, rfl⟩
  | @up n x p y hp hw ih =>
    obtain ⟨i, j, z, h1, h2, h3⟩ := ih
    exact ⟨i + 1, j, z, by omega, by simp only [Spec.up, hp, Option.bind_some]; exact h2, h3⟩
  | @down n x c y hp hw ih =>
    obtain ⟨i, j, z, h1, h2, h3⟩ := ih
    cases i with
    | zero =>
      simp only [Spec.up] at h2
      injection h2 with h2
      subst h2
      exact ⟨0, j + 1, x, by omega, rfl, by rw [up_add, h3]; simp [Spec.up, hp]⟩
    | succ i =>
      simp only [Spec.up, hp, Option.bind_some] at h2
      exact ⟨i, j, z, by omega, h2, h3⟩

theorem Walk.snoc_up {n x y p : Nat} (hw : Walk par n x y) (hp : par y = some p) : Walk par (n + 1) x p := by
  induction hw with
  | here x => exact .up hp (.here p)
  | up h _ ih => exact .up h (ih hp)
  | down h _ ih => exact .down h (ih hp)

theorem Walk.snoc_down {n x y c : Nat} (hw : Walk par n x y) (hp : par c = some y) : Walk par (n + 1) x c := by
  induction hw with
  | here x => exact .down hp (.here c)
  | up h _ ih => exact .up h (ih hp)
  | down h _ ih => exact .down h (ih hp)

theorem walk_climb {k x z : Nat} (h : up par k x = some z) : Walk par k x z := by
  induction k generalizing x with
  | zero => simp [up] at h; subst h; exact .here x
  | succ k ih =>
    simp only [up] at h
    cases hp : par x with
    | none => rw [hp] at h; simp at h
    | some p => rw [hp] at h; exact .up hp (ih h)

theorem walk_trans_down {n x z k y : Nat} (hw : Walk par n x z) (h : up par k y = some z) : Walk par (n + k) x y := by
  induction k generalizing z n with
  | zero => simp [up] at h; subst h; exact hw
  | succ k ih =>
    obtain ⟨w, w1, w2⟩ := up_of_add h
    have hp : par w = some z := by simpa [up] using w2
    have := ih (Walk.snoc_down hw hp) w1
    rw [show n + (k + 1) = n + 1 + k by omega]
    exact this

theorem isDist_lca (hr : par r = none) {x y a dx dy L : Nat} (hdx : Depth par r x dx) (hdy : Depth par r y dy)
    (ha : IsLCA par a x y) (hL : Depth par r a L) : IsDist par x y (dx + dy - 2 * L) ∧ L ≤ dx ∧ L ≤ dy := by
  obtain ⟨⟨i, hi⟩, ⟨j, hj⟩, hmax⟩ := ha
  obtain ⟨i1, i2⟩ := up_le hr hdx hi
  obtain ⟨j1, j2⟩ := up_le hr hdy hj
  have ei := depth_unique hr hL i2
  have ej := depth_unique hr hL j2
  refine ⟨⟨?_, fun n hn => ?_⟩, by omega, by omega⟩
  · have := walk_trans_down (walk_climb hi) hj
    rw [show dx + dy - 2 * L = i + j by omega]
    exact this
  · obtain ⟨p, q, z, h1, h2, h3⟩ := walk_meet hn
    obtain ⟨m, hm⟩ := hmax z ⟨p, h2⟩ ⟨q, h3⟩
    obtain ⟨p1, p2⟩ := up_le hr hdx h2
    obtain ⟨q1, q2⟩ := up_le hr hdy h3
    obtain ⟨m1, m2⟩ := up_le hr hL hm
    have e1 := depth_unique hr p2 m2
    have e2 := depth_unique hr q2 m2
    omega

theorem distance_ok (H : TInv par r N h) {x y dx dy a L : Nat} (hx : x ∈ N) (hy : y ∈ N) (hdx : Depth par r x dx)
    (hdy : Depth par r y dy) (hsx : dx < 2 ^ 30) (hsy : dy < 2 ^ 30) (ha : IsLCA par a x y) (hL : Depth par r a L)
    (hlca : lca h x y = .ok (some a)) : getDistance h x y = .ok ((dx + dy - 2 * L : Nat) : Int) := by
  obtain ⟨_, l1, l2⟩ := isDist_lca H.root hdx hdy ha hL
  have haN : a ∈ N := by obtain ⟨i, hi⟩ := ha.1; exact H.up_mem i x a hx hi
  unfold getDistance
  rw [getHeight_ok H hx hdx, Out.ok_bind, getHeight_ok H hy hdy, Out.ok_bind,
    int_ok (by unfold IsInt INT_MIN INT_MAX; omega), Out.ok_bind, hlca, Out.ok_bind]
  dsimp only
  rw [getHeight_ok H haN hL, Out.ok_bind, int_ok (by unfold IsInt INT_MIN INT_MAX; omega), Out.ok_bind,
    int_ok (by unfold IsInt INT_MIN INT_MAX; omega)]
  congr 1
  omega

end

end Tree
