import Verif.Model.TreeCost
import Verif.Proof.Tree
import Mathlib.Data.Nat.Size

/-! # Helper lemmas: the number of rounds of the loops of `Tree` -/

namespace Tree
open Cpp Spec

/-! ## without the counter -/

/-- forgetting the counter -/
def drop {α : Type} (o : Out (α × Nat)) : Out α := o.bind fun p => .ok p.1

theorem drop_bind {α β : Type} (o : Out α) (f : α → Out (β × Nat)) : drop (o.bind f) = o.bind fun a => drop (f a) := by
  cases o <;> rfl

theorem drop_bind' {α β : Type} (o : Out (α × Nat)) (f : α → Out β) (g : α × Nat → Out (β × Nat))
    (h : ∀ p, drop (g p) = f p.1) : drop (o.bind g) = (drop o).bind f := by
  cases o with
  | ok p => exact h p
  | exit => rfl
  | ub => rfl
  | diverge => rfl

theorem climbC_drop (h : Heap) (level : Int) : ∀ n cur k, drop (climbC h level n cur k) = climb h level n cur
  | 0, _, _ => rfl
  | n + 1, cur, k => by
    rw [climbC, climb]
    by_cases c : level ≥ 2 ^ (30 - n)
    · rw [if_pos c, if_pos c]
      refine (drop_bind _ _).trans ?_
      exact congrArg _ (funext fun cur => climbC_drop h level n cur (k + 1))
    · rw [if_neg c, if_neg c]; rfl

theorem lcaStepC_drop (h : Heap) (s : (Nat × Nat) × Nat) (i : Nat) : drop (lcaStepC h s i) = lcaStep h s.1 i := by
  unfold lcaStepC lcaStep
  refine (drop_bind _ _).trans (congrArg _ (funext fun nd => ?_))
  refine (drop_bind _ _).trans (congrArg _ (funext fun a => ?_))
  refine (drop_bind _ _).trans (congrArg _ (funext fun nd' => ?_))
  refine (drop_bind _ _).trans (congrArg _ (funext fun b => ?_))
  split <;> rfl

theorem foldC_drop (h : Heap) : ∀ (l : List Nat) (s : (Nat × Nat) × Nat),
    drop (l.foldlM (lcaStepC h) s) = l.foldlM (lcaStep h) s.1
  | [], _ => rfl
  | i :: l, s => by
    rw [List.foldlM_cons, List.foldlM_cons, ← lcaStepC_drop]
    exact drop_bind' _ _ _ fun p => foldC_drop h l p

theorem lcaC_drop (h : Heap) (x y : Nat) : drop (lcaC h x y) = lca h x y := by
  unfold lcaC lca
  refine (drop_bind _ _).trans (congrArg _ (funext fun hx => ?_))
  refine (drop_bind _ _).trans (congrArg _ (funext fun hy => ?_))
  have e : (if hx < hy then do Out.ok (x, ← getAncestor h y (← int (hy - hx)))
      else do .ok (← getAncestor h x (← int (hx - hy)), y) : Out (Nat × Nat)) = drop (if hx < hy then do
        let (y, k) ← getAncestorC h y (← int (hy - hx))
        .ok ((x, y), k)
      else do
        let (x, k) ← getAncestorC h x (← int (hx - hy))
        .ok ((x, y), k)) := by
    split
    · refine Eq.symm ((drop_bind _ _).trans (congrArg _ (funext fun d => ?_)))
      unfold getAncestor getAncestorC
      rw [← climbC_drop h d 31 y 0]
      exact drop_bind' _ _ _ fun p => rfl
    · refine Eq.symm ((drop_bind _ _).trans (congrArg _ (funext fun d => ?_)))
      unfold getAncestor getAncestorC
      rw [← climbC_drop h d 31 x 0]
      exact drop_bind' _ _ _ fun p => rfl
  rw [e]
  refine drop_bind' _ _ _ fun p => ?_
  obtain ⟨⟨x, y⟩, k⟩ := p
  dsimp only
  split
  · rfl
  · refine (drop_bind _ _).trans (congrArg _ (funext fun nx => ?_))
    rw [← foldC_drop h _ ((x, y), k)]
    refine drop_bind' _ _ _ fun p => ?_
    obtain ⟨⟨x, y⟩, k⟩ := p
    dsimp only
    cases deref h x <;> rfl

/-! ## bounds -/

theorem climbC_le {h : Heap} {level : Int} {f : Nat} (hl : level < 2 ^ f) : ∀ {n cur k z k' : Nat}, n ≤ 31 →
    climbC h level n cur k = .ok (z, k') → k' ≤ k + (f - (31 - n))
  | 0, _, _, _, _, _, e => by cases e
  | n + 1, cur, k, z, k', hn, e => by
    rw [climbC] at e
    by_cases c : level ≥ 2 ^ (30 - n)
    · rw [if_pos c] at e
      obtain ⟨cur', -, e⟩ := Out.bind_eq_ok.1 e
      have := climbC_le hl (by omega) e
      have hlt : (2 : Int) ^ (30 - n) < 2 ^ f := by omega
      have : 30 - n < f := by
        by_contra hc
        have : (2 ^ f : Nat) ≤ 2 ^ (30 - n) := Nat.pow_le_pow_right (by omega) (by omega)
        have : ((2 ^ f : Nat) : Int) ≤ ((2 ^ (30 - n) : Nat) : Int) := by exact_mod_cast this
        push_cast at this
        omega
      omega
    · rw [if_neg c] at e
      simp only [Out.ok.injEq, Prod.mk.injEq] at e
      omega

/-- the loop of `getAncestor` takes as many rounds as the number has binary digits -/
theorem climbC_eq {h : Heap} {l : Nat} : ∀ {n cur k z k' : Nat}, n ≤ 31 →
    climbC h l n cur k = .ok (z, k') → k' = k + (Nat.size l - (31 - n))
  | 0, _, _, _, _, _, e => by cases e
  | n + 1, cur, k, z, k', hn, e => by
    rw [climbC] at e
    have hc : ((l : Int) ≥ 2 ^ (30 - n)) ↔ 2 ^ (30 - n) ≤ l := by
      rw [ge_iff_le, show ((2 : Int) ^ (30 - n)) = ((2 ^ (30 - n) : Nat) : Int) by push_cast; rfl]
      exact Int.ofNat_le
    by_cases c : (l : Int) ≥ 2 ^ (30 - n)
    · rw [if_pos c] at e
      obtain ⟨cur', -, e⟩ := Out.bind_eq_ok.1 e
      have := climbC_eq (by omega) e
      have := Nat.lt_size.2 (hc.1 c)
      omega
    · rw [if_neg c] at e
      simp only [Out.ok.injEq, Prod.mk.injEq] at e
      have : ¬ (30 - n < Nat.size l) := fun q => c (hc.2 (Nat.lt_size.1 q))
      omega

theorem foldC_count {h : Heap} : ∀ {l : List Nat} {s s' : (Nat × Nat) × Nat}, l.foldlM (lcaStepC h) s = .ok s' →
    s'.2 = s.2 + l.length
  | [], s, s', e => by
    rw [List.foldlM_nil] at e
    injection e with e
    subst e; rfl
  | i :: l, s, s', e => by
    rw [List.foldlM_cons] at e
    obtain ⟨s1, e1, e2⟩ := Out.bind_eq_ok.1 e
    have h1 : s1.2 = s.2 + 1 := by
      unfold lcaStepC at e1
      obtain ⟨_, -, e1⟩ := Out.bind_eq_ok.1 e1
      obtain ⟨a, -, e1⟩ := Out.bind_eq_ok.1 e1
      obtain ⟨_, -, e1⟩ := Out.bind_eq_ok.1 e1
      obtain ⟨b, -, e1⟩ := Out.bind_eq_ok.1 e1
      split at e1 <;> (injection e1 with e1; subst e1; rfl)
    have := foldC_count e2
    simp only [List.length_cons]
    omega

section
variable {par : Nat → Option Nat} {r : Nat} {N : List Nat} {h : Heap}

theorem anc_length_le (H : TInv par r N h) {x d f : Nat} (hx : x ∈ N) (hd : Depth par r x d) (hf : d < 2 ^ f) {nd : Nd}
    (hnd : h x = some nd) : nd.ancestor.length ≤ f := by
  by_contra hc
  have := (anc_length H hx hd hnd f).1 (by omega)
  omega

theorem anc_length_eq (H : TInv par r N h) {x d : Nat} (hx : x ∈ N) (hd : Depth par r x d) {nd : Nd}
    (hnd : h x = some nd) : nd.ancestor.length = Nat.size d := by
  have key := anc_length H hx hd hnd
  apply le_antisymm
  · by_contra hc
    have := (key (Nat.size d)).1 (by omega)
    have := Nat.lt_size_self d
    omega
  · by_contra hc
    have := Nat.lt_size.1 (show nd.ancestor.length < Nat.size d by omega)
    have := (key _).2 this
    omega

/-- the part of `LCA` after lifting, with the counter -/
theorem lcaTailC_count (H : TInv par r N h) {u v d k1 : Nat} (hu : u ∈ N) (hdu : Depth par r u d) {o : Option Nat} {k : Nat}
    (e : (if u = v then Out.ok (some u, k1) else do
      let nx ← deref h u
      let ((x, _), k) ← (List.range nx.ancestor.length).reverse.foldlM (lcaStepC h) ((u, v), k1)
      .ok ((← deref h x).fa, k)) = .ok (o, k)) : k = k1 + if u = v then 0 else Nat.size d := by
  by_cases c : u = v
  · rw [if_pos c] at e ⊢
    simp only [Out.ok.injEq, Prod.mk.injEq] at e
    omega
  · rw [if_neg c] at e ⊢
    obtain ⟨nx, n1, e2⟩ := Out.bind_eq_ok.1 e
    obtain ⟨⟨⟨u', v'⟩, k3⟩, e3, e4⟩ := Out.bind_eq_ok.1 e2
    have hc := foldC_count e3
    obtain ⟨nu, -, u1, -⟩ := H.get hu
    rw [deref_ok u1] at n1
    injection n1 with n1
    subst n1
    have := anc_length_eq H hu hdu u1
    dsimp only at e4
    obtain ⟨_, -, e4⟩ := Out.bind_eq_ok.1 e4
    simp only [Out.ok.injEq, Prod.mk.injEq] at e4
    simp only [List.length_reverse, List.length_range] at hc
    omega

theorem isAnc_iff (hr : par r = none) {x y dx dy z : Nat} (hdx : Depth par r x dx) (hdy : Depth par r y dy) (hle : dy ≤ dx)
    (hz : up par (dx - dy) x = some z) : (IsAnc par x y ∨ IsAnc par y x) ↔ z = y := by
  constructor
  · rintro (⟨m, hm⟩ | ⟨m, hm⟩)
    · obtain ⟨m1, m2⟩ := up_le hr hdy hm
      have := depth_unique hr m2 hdx
      have hm0 : m = 0 := by omega
      have hd0 : dx - dy = 0 := by omega
      subst hm0
      rw [hd0] at hz
      simp [up] at hm hz
      omega
    · obtain ⟨m1, m2⟩ := up_le hr hdx hm
      have := depth_unique hr m2 hdy
      have : m = dx - dy := by omega
      subst this
      rw [hm] at hz
      injection hz with hz
      exact hz.symm
  · rintro rfl
    exact .inr ⟨_, hz⟩

/-- the exact number of rounds -/
theorem lcaC_eq (H : TInv par r N h) {x y dx dy : Nat} (hx : x ∈ N) (hy : y ∈ N) (hdx : Depth par r x dx)
    (hdy : Depth par r y dy) (hsx : dx < 2 ^ 30) (hsy : dy < 2 ^ 30)
    {o : Option Nat} {k : Nat} (e : lcaC h x y = .ok (o, k)) :
    (IsAnc par x y ∨ IsAnc par y x → k = Nat.size (max dx dy - min dx dy)) ∧
    (¬ (IsAnc par x y ∨ IsAnc par y x) → k = Nat.size (max dx dy - min dx dy) + Nat.size (min dx dy)) := by
  unfold lcaC at e
  rw [getHeight_ok H hx hdx, getHeight_ok H hy hdy, Out.ok_bind, Out.ok_bind] at e
  have lift : ∀ {x d e x' k2 : Nat}, x ∈ N → Depth par r x d → e ≤ d → d < 2 ^ 30 → getAncestorC h x ((d - e : Nat) : Int) = .ok (x', k2) →
      k2 = Nat.size (d - e) ∧ up par (d - e) x = some x' := by
    intro x d e x' k2 hx hd he hs q
    refine ⟨?_, ?_⟩
    · have := climbC_eq (le_refl 31) q
      omega
    · have h2 : getAncestor h x ((d - e : Nat) : Int) = .ok x' := by
        unfold getAncestor
        unfold getAncestorC at q
        rw [← climbC_drop h _ 31 x 0, q]; rfl
      rw [getAncestor_eq H hx (by omega)] at h2
      obtain ⟨z, hz, -⟩ := up_some hd (k := d - e) (by omega)
      rw [hz] at h2 ⊢
      injection h2 with h2
      rw [h2]
  obtain ⟨⟨⟨u, v⟩, k1⟩, e1, e2⟩ := Out.bind_eq_ok.1 e
  dsimp only at e2
  split at e1
  · rename_i c
    obtain ⟨t, t1, t2⟩ := Out.bind_eq_ok.1 e1
    obtain ⟨⟨y', k2⟩, t3, t4⟩ := Out.bind_eq_ok.1 t2
    simp only [Out.ok.injEq, Prod.mk.injEq] at t4
    obtain ⟨⟨rfl, rfl⟩, rfl⟩ := t4
    obtain ⟨-, rfl⟩ := int_eq_ok.1 t1
    rw [show ((dy : Int) - dx) = ((dy - dx : Nat) : Int) by omega] at t3
    obtain ⟨q1, q2⟩ := lift hy hdy (by omega) hsy t3
    have := lcaTailC_count H hx hdx e2
    have hi := isAnc_iff H.root hdy hdx (by omega) q2
    rw [or_comm, hi, max_eq_right (by omega), min_eq_left (by omega)]
    refine ⟨fun q => ?_, fun q => ?_⟩
    · rw [if_pos q.symm] at this; omega
    · rw [if_neg fun w => q w.symm] at this; omega
  · rename_i c
    obtain ⟨t, t1, t2⟩ := Out.bind_eq_ok.1 e1
    obtain ⟨⟨x', k2⟩, t3, t4⟩ := Out.bind_eq_ok.1 t2
    simp only [Out.ok.injEq, Prod.mk.injEq] at t4
    obtain ⟨⟨rfl, rfl⟩, rfl⟩ := t4
    obtain ⟨-, rfl⟩ := int_eq_ok.1 t1
    rw [show ((dx : Int) - dy) = ((dx - dy : Nat) : Int) by omega] at t3
    obtain ⟨q1, q2⟩ := lift hx hdx (by omega) hsx t3
    obtain ⟨z, hz, hdz⟩ := up_some hdx (k := dx - dy) (by omega)
    rw [q2] at hz
    injection hz with hz
    subst hz
    rw [show dx - (dx - dy) = dy by omega] at hdz
    have := lcaTailC_count H (H.up_mem _ _ _ hx q2) hdz e2
    have hi := isAnc_iff H.root hdx hdy (by omega) q2
    rw [hi, max_eq_left (by omega), min_eq_right (by omega)]
    refine ⟨fun q => ?_, fun q => ?_⟩
    · rw [if_pos q] at this; omega
    · rw [if_neg q] at this; omega

theorem lcaC_le (H : TInv par r N h) {x y dx dy f : Nat} (hx : x ∈ N) (hy : y ∈ N) (hdx : Depth par r x dx)
    (hdy : Depth par r y dy) (hfx : dx < 2 ^ f) (hfy : dy < 2 ^ f) (hsx : dx < 2 ^ 30) (hsy : dy < 2 ^ 30)
    {o : Option Nat} {k : Nat} (e : lcaC h x y = .ok (o, k)) : k ≤ 2 * f := by
  unfold lcaC at e
  rw [getHeight_ok H hx hdx, getHeight_ok H hy hdy, Out.ok_bind, Out.ok_bind] at e
  obtain ⟨⟨⟨u, v⟩, k1⟩, e1, e2⟩ := Out.bind_eq_ok.1 e
  have hpow : ∀ a b : Nat, a < 2 ^ f → ((a : Int) - b) < 2 ^ f := by
    intro a b h
    have : (a : Int) < ((2 ^ f : Nat) : Int) := by exact_mod_cast h
    push_cast at this
    omega
  have key : k1 ≤ f ∧ u ∈ N ∧ ∃ du, Depth par r u du ∧ du < 2 ^ f := by
    split at e1
    · rename_i c
      obtain ⟨t, t1, t2⟩ := Out.bind_eq_ok.1 e1
      obtain ⟨⟨y', k2⟩, t3, t4⟩ := Out.bind_eq_ok.1 t2
      simp only [Out.ok.injEq, Prod.mk.injEq] at t4
      obtain ⟨⟨rfl, rfl⟩, rfl⟩ := t4
      obtain ⟨-, rfl⟩ := int_eq_ok.1 t1
      refine ⟨?_, hx, dx, hdx, hfx⟩
      have := climbC_le (hpow dy dx hfy) (le_refl 31) t3
      omega
    · rename_i c
      obtain ⟨t, t1, t2⟩ := Out.bind_eq_ok.1 e1
      obtain ⟨⟨x', k2⟩, t3, t4⟩ := Out.bind_eq_ok.1 t2
      simp only [Out.ok.injEq, Prod.mk.injEq] at t4
      obtain ⟨⟨rfl, rfl⟩, rfl⟩ := t4
      obtain ⟨-, rfl⟩ := int_eq_ok.1 t1
      have h1 := climbC_le (hpow dx dy hfx) (le_refl 31) t3
      have h2 : getAncestor h x ((dx : Int) - dy) = .ok x' := by
        unfold getAncestor
        unfold getAncestorC at t3
        rw [← climbC_drop h _ 31 x 0, t3]; rfl
      rw [show ((dx : Int) - dy) = ((dx - dy : Nat) : Int) by omega, getAncestor_eq H hx (by omega)] at h2
      obtain ⟨z, hz, hdz⟩ := up_some hdx (k := dx - dy) (by omega)
      rw [hz] at h2
      injection h2 with h2
      subst h2
      exact ⟨by omega, H.up_mem _ _ _ hx hz, _, hdz, by omega⟩
  obtain ⟨hk1, hu, du, hdu, hfu⟩ := key
  dsimp only at e2
  split at e2
  · simp only [Out.ok.injEq, Prod.mk.injEq] at e2
    omega
  · obtain ⟨nx, n1, e2⟩ := Out.bind_eq_ok.1 e2
    obtain ⟨⟨⟨u', v'⟩, k3⟩, e3, e4⟩ := Out.bind_eq_ok.1 e2
    have hc := foldC_count e3
    obtain ⟨nu, -, u1, -⟩ := H.get hu
    rw [deref_ok u1] at n1
    injection n1 with n1
    subst n1
    have := anc_length_le H hu hdu hfu u1
    dsimp only at e4
    obtain ⟨_, -, e4⟩ := Out.bind_eq_ok.1 e4
    simp only [Out.ok.injEq, Prod.mk.injEq] at e4
    simp only [List.length_reverse, List.length_range] at hc
    omega
end

/-! ## the loop of `addNode` -/

theorem fill_grows {node : Nat} : ∀ {F i : Nat} {h h' : Heap} {nd nd' : Nd}, fillAncestors h node F i = .ok h' →
      h node = some nd → h' node = some nd' → nd.ancestor.length ≤ nd'.ancestor.length
  | 0, _, _, _, _, _, e, _, _ => by cases e
  | F + 1, i, h, h', nd, nd', e, h1, h3 => by
    rw [fillAncestors, deref_ok h1, Out.ok_bind] at e
    obtain ⟨a, ea, e⟩ := Out.bind_eq_ok.1 e
    obtain ⟨next, en, e⟩ := Out.bind_eq_ok.1 e
    split at e
    · injection e with e
      subst e
      rw [h1] at h3
      injection h3 with h3
      subst h3
      exact le_refl _
    · obtain ⟨b, eb, e⟩ := Out.bind_eq_ok.1 e
      have := fill_grows e (store_self _ _ _) h3
      simp at this
      omega

theorem fill_fuel {node : Nat} : ∀ {F i : Nat} {h h' : Heap} {nd nd' : Nd}, fillAncestors h node F i = .ok h' →
    h node = some nd → nd.ancestor.length = i + 1 → h' node = some nd' → ∀ f, nd'.ancestor.length ≤ f + i →
    fillAncestors h node f i = .ok h'
  | 0, _, _, _, _, _, e, _, _, _, _, _ => by cases e
  | F + 1, i, h, h', nd, nd', e, h1, h2, h3, f, hf => by
    rw [fillAncestors] at e
    rw [deref_ok h1, Out.ok_bind] at e
    obtain ⟨a, ea, e⟩ := Out.bind_eq_ok.1 e
    obtain ⟨next, en, e⟩ := Out.bind_eq_ok.1 e
    split at e
    · rename_i c
      injection e with e
      subst e
      rw [h1] at h3
      injection h3 with h3
      subst h3
      obtain ⟨f, rfl⟩ : ∃ g, f = g + 1 := ⟨f - 1, by omega⟩
      rw [fillAncestors, deref_ok h1, Out.ok_bind, ea, Out.ok_bind, en, Out.ok_bind, if_pos c]
    · rename_i c
      obtain ⟨b, eb, e⟩ := Out.bind_eq_ok.1 e
      have hl := fill_grows e (store_self _ _ _) h3
      simp [h2] at hl
      obtain ⟨f, rfl⟩ : ∃ g, f = g + 1 := ⟨f - 1, by omega⟩
      rw [fillAncestors, deref_ok h1, Out.ok_bind, ea, Out.ok_bind, en, Out.ok_bind, if_neg c, eb, Out.ok_bind]
      exact fill_fuel e (store_self _ _ _) (by simp [h2]) h3 f (by omega)
theorem addNode_fuel {F : Nat} {h h' : Heap} {x p : Nat} (hne : x ≠ p) {id val : Int} (hx : h x = some (mkNode id val))
    {nd' : Nd} (e : addNode F h x p = .ok h') (h3 : h' x = some nd') {f : Nat} (hf : nd'.ancestor.length ≤ f) :
    addNode f h x p = .ok h' := by
  unfold addNode at e ⊢
  obtain ⟨np, e1, e⟩ := Out.bind_eq_ok.1 e
  rw [e1, Out.ok_bind]
  dsimp only at e ⊢
  obtain ⟨nd, e2, e⟩ := Out.bind_eq_ok.1 e
  rw [e2, Out.ok_bind]
  obtain ⟨d0, e3, e⟩ := Out.bind_eq_ok.1 e
  rw [e3, Out.ok_bind]
  obtain ⟨d, e4, e⟩ := Out.bind_eq_ok.1 e
  rw [e4, Out.ok_bind]
  obtain ⟨n2, e5, e⟩ := Out.bind_eq_ok.1 e
  rw [e5, Out.ok_bind]
  obtain ⟨n3, e6, e⟩ := Out.bind_eq_ok.1 e
  rw [e6, Out.ok_bind]
  rw [deref_ok ((store_ne _ _ hne).trans hx)] at e2
  injection e2 with e2
  subst e2
  rw [deref_ok (store_self _ _ _)] at e5
  injection e5 with e5
  subst e5
  rw [deref_ok (store_self _ _ _)] at e6
  injection e6 with e6
  subst e6
  exact fill_fuel e (store_self _ _ _) (by simp [mkNode]) h3 f (by omega)

theorem run_fuel {r : Nat} {adds : List (Nat × Nat)} (hb : Built r adds) {h : Heap}
    (hf : ∀ x ∈ nodes r adds, Fresh h x) (hlen : adds.length ≤ 2 ^ 30) :
    ∃ h', TInv (parentOf adds) r (nodes r adds) h' ∧ (∀ y, y ∉ nodes r adds → h' y = h y) ∧
      ∀ f, (∀ x ∈ nodes r adds, ∀ d, Depth (parentOf adds) r x d → d < 2 ^ f) → run f h r adds = .ok h' := by
  induction hb with
  | root =>
    obtain ⟨h', e, H, fr⟩ := run_ok (.root) hf hlen (fuel := 1) (by simp)
    exact ⟨h', H, fr, fun f _ => e⟩
  | @add adds x p hb hx hp ih =>
    have hs : ∀ z, z ∈ nodes r adds → z ∈ nodes r (adds ++ [(x, p)]) := by
      intro z hz; simp [nodes] at hz ⊢; rcases hz with h | ⟨w, h⟩
      · exact .inl h
      · exact .inr (.inl ⟨w, h⟩)
    simp at hlen
    obtain ⟨h', H, fr, e⟩ := ih (fun z hz => hf z (hs z hz)) (by omega)
    obtain ⟨id, val, hx0⟩ := hf x (by simp [nodes])
    have hx1 : h' x = some (mkNode id val) := by rw [fr x hx, hx0]
    obtain ⟨h'', e', H', fr'⟩ := addNode_ok hb hx hp H ⟨id, val, hx1⟩ (by omega) (fuel := adds.length + 2) (by omega)
    refine ⟨h'', H', fun y hy => by rw [fr' y hy, fr y fun q => hy (hs y q)], fun f hD => ?_⟩
    have hD' : ∀ z ∈ nodes r adds, ∀ d, Depth (parentOf adds) r z d → d < 2 ^ f := by
      intro z hz d hd
      refine hD z (hs z hz) d ?_
      unfold Depth at hd ⊢
      rw [up_append hb hx _ _ hz]; exact hd
    have e0 := e f hD'
    have hxm : x ∈ nodes r (adds ++ [(x, p)]) := by simp [nodes]
    obtain ⟨nd', d, n1, n2, -⟩ := H'.get hxm
    have e1 := addNode_fuel (by rintro rfl; exact hx hp) hx1 e' n1 (f := f) (anc_length_le H' hxm n2 (hD x hxm d n2) n1)
    unfold run at e0 ⊢
    obtain ⟨h0, e2, e3⟩ := Out.bind_eq_ok.1 e0
    rw [e2, Out.ok_bind, List.foldlM_append, e3, Out.ok_bind, List.foldlM_cons, e1, Out.ok_bind]
    rfl

end Tree
