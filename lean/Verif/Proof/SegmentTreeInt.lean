import Verif.Spec.SegmentTreeInt
import Verif.Proof.SegmentTree
import Mathlib.Algebra.Order.BigOperators.Group.Finset
import Mathlib.Algebra.Order.Ring.Abs
import Mathlib.Algebra.Order.Group.Int

/-! # Lemmas about `SegmentTree<int>` -/

namespace SegmentTree
open Cpp Spec

set_option linter.unusedSimpArgs false

/-! ### whatever is defined agrees with exact arithmetic -/

/-- `a` is undefined or equal to `b`. -/
def Ref {β : Type} (a b : Out β) : Prop := a = .ub ∨ a = b

theorem Ref.rfl {β : Type} {a : Out β} : Ref a a := .inr (Eq.refl _)

theorem Ref.bind {β γ : Type} {a b : Out β} {f g : β → Out γ} (h : Ref a b) (hf : ∀ x, Ref (f x) (g x)) :
    Ref (a >>= f) (b >>= g) := by
  rcases h with h | h
  · subst h; exact .inl (Eq.refl _)
  · subst h
    cases a with
    | ok x => exact hf x
    | exit => exact .rfl
    | ub => exact .rfl
    | diverge => exact .rfl

theorem Ref.bindOk {β γ : Type} {a : Out β} {x : β} {f : β → Out γ} {b : Out γ} (h : Ref a (.ok x)) (hf : Ref (f x) b) :
    Ref (a >>= f) b := by
  rcases h with h | h
  · subst h; exact .inl (Eq.refl _)
  · subst h; exact hf

theorem Ref.ok {β : Type} {a b : Out β} {x : β} (h : Ref a b) (e : a = .ok x) : b = .ok x := by
  rcases h with h | h
  · rw [h] at e; cases e
  · rw [← h]; exact e

theorem ref_int (x : Int) : Ref (int x) (.ok x) := by
  unfold int; split
  · exact .rfl
  · exact .inl (Eq.refl _)

theorem ref_ite {β : Type} {p : Prop} [Decidable p] {a b c d : Out β} (h1 : Ref a c) (h2 : Ref b d) :
    Ref (if p then a else b) (if p then c else d) := by
  split
  · exact h1
  · exact h2

theorem ref_pushMul (m : Int) (c : Node Int) : Ref (pushMulI m c) (.ok (pushMul m c)) := by
  unfold pushMulI pushMul
  refine Ref.bindOk (x := if c.hasMul then c.mul * m else m) ?_ (Ref.bindOk (x := if c.hasAdd then c.add * m else c.add) ?_ .rfl)
  · split
    · exact ref_int _
    · exact .rfl
  · split
    · exact ref_int _
    · exact .rfl

theorem ref_pushAdd (a : Int) (c : Node Int) : Ref (pushAddI a c) (.ok (pushAdd a c)) := by
  unfold pushAddI pushAdd
  refine Ref.bindOk (x := if c.hasAdd then c.add + a else a) ?_ .rfl
  split
  · exact ref_int _
  · exact .rfl

theorem ref_update (t : Seg Int) (o : Nat) (l r : Int) : Ref (updateI t o l r) (update t o l r) := by
  unfold updateI update
  refine Ref.bind .rfl fun nd => Ref.bind (ref_ite ?_ .rfl) fun t => Ref.bind .rfl fun nd => ref_ite ?_ .rfl
  · unfold updateMulI
    refine Ref.bindOk (ref_int _) (Ref.bindOk (ref_int _) (Ref.bindOk (ref_int _) (Ref.bind .rfl fun t => Ref.bind .rfl fun c =>
      Ref.bindOk (ref_pushMul _ _) (Ref.bind .rfl fun t => Ref.bind .rfl fun c => Ref.bindOk (ref_pushMul _ _) .rfl))))
  · unfold updateAddI
    exact Ref.bindOk (ref_int _) (Ref.bindOk (ref_int _) (Ref.bindOk (ref_int _) (Ref.bindOk (ref_int _)
      (Ref.bind .rfl fun t => Ref.bind .rfl fun c =>
      Ref.bindOk (ref_pushAdd _ _) (Ref.bind .rfl fun t => Ref.bind .rfl fun c => Ref.bindOk (ref_pushAdd _ _) .rfl)))))

theorem ref_init (v : List Int) : ∀ (fuel : Nat) (l r : Int) (o : Nat) (t : Seg Int),
    Ref (initI v fuel l r o t) (init v fuel l r o t) := by
  intro fuel
  induction fuel with
  | zero => intro l r o t; exact .rfl
  | succ fuel ih =>
    intro l r o t
    unfold initI init
    refine ref_ite .rfl ?_
    exact Ref.bind (ih ..) fun t => Ref.bind (ih ..) fun t => Ref.bind .rfl fun a => Ref.bind .rfl fun b =>
      Ref.bind .rfl fun nd => Ref.bindOk (ref_int _) .rfl

theorem ref_query {sel : Node Int → Int} {C : Int → Int → Out Int} {c : Int → Int → Int}
    (hC : ∀ x y, Ref (C x y) (.ok (c x y))) (lv rv : Int) : ∀ (fuel : Nat) (l r : Int) (o : Nat) (t : Seg Int),
    Ref (queryI sel C lv rv fuel l r o t) (query sel c lv rv fuel l r o t) := by
  intro fuel
  induction fuel with
  | zero => intro l r o t; exact .rfl
  | succ fuel ih =>
    intro l r o t
    unfold queryI query
    refine Ref.bind (ref_update ..) fun t => ref_ite .rfl (ref_ite (ih ..) (ref_ite (ih ..) ?_))
    exact Ref.bind (ih ..) fun p => Ref.bind (ih ..) fun q => Ref.bindOk (hC _ _) .rfl

theorem ref_change (tag : Node Int → Node Int) (lv rv : Int) : ∀ (fuel : Nat) (l r : Int) (o : Nat) (t : Seg Int),
    Ref (changeI tag lv rv fuel l r o t) (change tag lv rv fuel l r o t) := by
  intro fuel
  induction fuel with
  | zero => intro l r o t; exact .rfl
  | succ fuel ih =>
    intro l r o t
    unfold changeI change
    refine Ref.bind (ref_update ..) fun t => ref_ite .rfl ?_
    exact Ref.bind (ref_ite (ih ..) .rfl) fun t => ref_ite (ih ..) .rfl

theorem ref_max (fuel : Nat) (t : Seg Int) (a b : Int) : Ref (queryMaxI fuel t a b) (queryMax fuel t a b) :=
  ref_query (fun _ _ => .rfl) ..
theorem ref_min (fuel : Nat) (t : Seg Int) (a b : Int) : Ref (queryMinI fuel t a b) (queryMin fuel t a b) :=
  ref_query (fun _ _ => .rfl) ..
theorem ref_sum (fuel : Nat) (t : Seg Int) (a b : Int) : Ref (querySumI fuel t a b) (querySum fuel t a b) :=
  ref_query (fun _ _ => ref_int _) ..

theorem ref_exec (fuel : Nat) (t : Seg Int) (op : Op Int) : Ref (execI fuel t op) (exec fuel t op) := by
  cases op with
  | add => exact ref_change ..
  | mul => exact ref_change ..
  | max => exact Ref.bind (ref_max ..) fun _ => .rfl
  | min => exact Ref.bind (ref_min ..) fun _ => .rfl
  | sum => exact Ref.bind (ref_sum ..) fun _ => .rfl

theorem ref_run (fuel : Nat) (v : List Int) (ops : List (Op Int)) : Ref (runI fuel v ops) (run fuel v ops) := by
  refine Ref.bind (ref_init ..) fun t => ?_
  induction ops generalizing t with
  | nil => exact .rfl
  | cons op ops ih =>
    rw [List.foldlM_cons, List.foldlM_cons]
    exact Ref.bind (ref_exec ..) ih

/-! ### without updates -/

/-- All sums over intervals inside `[l, r]` fit. -/
def SumsFit (f : Int → Int) (l r : Int) : Prop :=
  ∀ a b, l ≤ a → a ≤ b → b ≤ r → IsInt (∑ p ∈ Finset.Icc a b, f p)

theorem initI_eq (v : List Int) (f : Int → Int) (hf : ∀ p : Int, 0 ≤ p → p < v.length → v[p.toNat]? = some (f p)) (N : Nat) :
    ∀ (l r : Int) (o : Nat), l ≤ r → ∀ (fuel : Nat) (t : Nat → Node Int), (r - l).toNat < fuel → 1 ≤ o →
    Room (4 * N) l r o → 0 ≤ l → r < v.length → Clean t o → SumsFit f l r →
    initI v fuel l r o ⟨N, t⟩ = init v fuel l r o ⟨N, t⟩ := by
  refine seg_ind ?_ ?_
  · intro l o fuel t hfu ho hR h0 hr hC hS
    obtain ⟨fuel, rfl⟩ : ∃ k, fuel = k + 1 := ⟨fuel - 1, by omega⟩
    rw [init, initI, if_pos rfl, if_pos rfl]
  · intro l r o hlr hL hRt fuel t hfu ho hR h0 hr hC hS
    obtain ⟨t3, e3, -, c3, -, g3, v3⟩ := init_ok v f hf N l r o hlr.le fuel t hfu ho hR h0 hr hC
    obtain ⟨fuel, rfl⟩ : ∃ k, fuel = k + 1 := ⟨fuel - 1, by omega⟩
    have hRo := room_lt hR
    rw [Room, if_pos hlr] at hR
    rw [init, if_neg (by omega)] at e3
    rw [init, initI, if_neg (by omega), if_neg (by omega)]
    dsimp only at e3 ⊢
    obtain ⟨t1, e1, f1, c1, lf1, g1, v1⟩ := init_ok v f hf N l _ (2 * o) (by omega) fuel t (by omega) (by omega) hR.2.1 h0
      (by omega) (clean_left hC)
    rw [hL fuel t (by omega) (by omega) hR.2.1 h0 (by omega) (clean_left hC) (fun a b h1 h2 h3 => hS a b h1 h2 (by omega)),
      e1, Out.ok_bind, Out.ok_bind]
    have hC1 : Clean t1 (2 * o + 1) := fun x hx => by
      rw [f1 x fun hx' => desc_disjoint ho hx' hx]; exact hC x (desc_of_right hx)
    obtain ⟨t2, e2, f2, c2, lf2, g2, v2⟩ := init_ok v f hf N _ r (2 * o + 1) (by omega) fuel t1 (by omega) (by omega) hR.2.2
      (by omega) hr hC1
    rw [hRt fuel t1 (by omega) (by omega) hR.2.2 (by omega) hr hC1 (fun a b h1 h2 h3 => hS a b (by omega) h2 h3),
      e2, Out.ok_bind, Out.ok_bind, at_ok (t := ⟨N, t2⟩) (room_lt hR.2.1), Out.ok_bind, Out.ok_bind,
      at_ok (t := ⟨N, t2⟩) (room_lt hR.2.2), Out.ok_bind, Out.ok_bind, at_ok (t := ⟨N, t2⟩) hRo, Out.ok_bind, Out.ok_bind]
    rw [e1, Out.ok_bind, e2, Out.ok_bind, at_ok (t := ⟨N, t2⟩) (room_lt hR.2.1), Out.ok_bind,
      at_ok (t := ⟨N, t2⟩) (room_lt hR.2.2), Out.ok_bind, at_ok (t := ⟨N, t2⟩) hRo, Out.ok_bind, put_ok _ hRo] at e3
    have g := g3 False l r
    rw [Good] at g
    have s := (g.1 (le_refl _) (le_refl _)).sum
    have s' : (t3 o).sm = ∑ p ∈ Finset.Icc l r, f p := by
      rw [s]
      refine Finset.sum_congr rfl fun p hp => ?_
      rw [Finset.mem_Icc] at hp
      rw [← v3 p hp.1 hp.2, eff_eq]
      simp [app, (c3 o (desc_self o)).1, (c3 o (desc_self o)).2]
    have e4 : (t3 o).sm = (t2 (2 * o)).sm + (t2 (2 * o + 1)).sm := by
      injection e3 with e3
      injection e3 with _ e3
      rw [← e3]; simp
    rw [e4] at s'
    dsimp only at s' ⊢
    rw [s', int_ok (hS l r (le_refl _) hlr.le (le_refl _)), Out.ok_bind]

theorem updateI_clean {t : Seg Int} {o : Nat} {l r : Int} (h : o < 4 * t.size) (h1 : (t.node o).hasAdd = false)
    (h2 : (t.node o).hasMul = false) : updateI t o l r = .ok t ∧ update t o l r = .ok t := by
  constructor
  · unfold updateI
    rw [at_ok h, Out.ok_bind]
    simp only [h2, Bool.false_eq_true, if_false, Out.ok_bind]
    rw [at_ok h, Out.ok_bind]
    simp [h1]
  · unfold update
    rw [at_ok h, Out.ok_bind]
    simp only [h2, Bool.false_eq_true, if_false, Out.ok_bind]
    rw [at_ok h, Out.ok_bind]
    simp [h1]

theorem queryI_eq {nn : Prop} {sel : Node Int → Int} {c : Int → Int → Int} {C : Int → Int → Out Int}
    {R : Int → Int → (Int → Int) → Int → Prop} (hR : Agg nn sel c R) {lv rv : Int} (hv : lv ≤ rv) {f : Int → Int}
    (hC : ∀ a m b x y, lv ≤ a → a ≤ m → m < b → b ≤ rv → R a m f x → R (m + 1) b f y → C x y = .ok (c x y)) (N : Nat)
    {t : Nat → Node Int} (hpos : Pos nn t) : ∀ (l r : Int) (o : Nat), l ≤ r →
    ∀ (fuel : Nat), (r - l).toNat < fuel → 1 ≤ o → lv ≤ r → l ≤ rv → Room (4 * N) l r o → Clean t o →
    Leafy t l r o → Good nn lv rv t l r o → (∀ p, l ≤ p → p ≤ r → eff t l r o p = f p) →
    queryI sel C lv rv fuel l r o ⟨N, t⟩ = query sel c lv rv fuel l r o ⟨N, t⟩ := by
  refine seg_ind ?_ ?_
  · intro l o fuel hf ho h1 h2 hS hcl hLf hg he
    obtain ⟨fuel, rfl⟩ : ∃ k, fuel = k + 1 := ⟨fuel - 1, by omega⟩
    obtain ⟨u1, u2⟩ := updateI_clean (t := ⟨N, t⟩) (o := o) (l := l) (r := l) (room_lt hS) (hcl o (desc_self o)).1
      (hcl o (desc_self o)).2
    rw [query, queryI, u1, u2, Out.ok_bind, Out.ok_bind, if_pos ⟨h1, h2⟩, if_pos ⟨h1, h2⟩]
  · intro l r o hlr hL hRt fuel hf ho h1 h2 hS hcl hLf hg he
    obtain ⟨fuel, rfl⟩ : ∃ k, fuel = k + 1 := ⟨fuel - 1, by omega⟩
    have hcl0 := hcl o (desc_self o)
    obtain ⟨u1, u2⟩ := updateI_clean (t := ⟨N, t⟩) (o := o) (l := l) (r := r) (room_lt hS) hcl0.1 hcl0.2
    rw [query, queryI, u1, u2, Out.ok_bind, Out.ok_bind]
    by_cases hc : lv ≤ l ∧ rv ≥ r
    · rw [if_pos hc, if_pos hc]
    rw [if_neg hc, if_neg hc]
    dsimp only
    rw [Room, if_pos hlr] at hS
    rw [Leafy, if_pos hlr] at hLf
    rw [Good, if_pos hlr] at hg
    have effL : ∀ p, l ≤ p → p ≤ (l + r) / 2 → eff t l ((l + r) / 2) (2 * o) p = f p := by
      intro p hp0 hp
      rw [← he p hp0 (by omega), eff_eq _ l r o p, below, if_pos hlr, if_pos hp]
      simp [app, hcl0.1, hcl0.2]
    have effR : ∀ p, (l + r) / 2 + 1 ≤ p → p ≤ r → eff t ((l + r) / 2 + 1) r (2 * o + 1) p = f p := by
      intro p hp hp0
      rw [← he p (by omega) hp0, eff_eq _ l r o p, below, if_pos hlr, if_neg (by omega)]
      simp [app, hcl0.1, hcl0.2]
    by_cases k1 : rv ≤ (l + r) / 2
    · rw [if_pos k1, if_pos k1]
      exact hL fuel (by omega) (by omega) (by omega) h2 hS.2.1 (clean_left hcl) hLf.1 hg.2.1 effL
    rw [if_neg k1, if_neg k1]
    by_cases k2 : lv > (l + r) / 2
    · rw [if_pos k2, if_pos k2]
      exact hRt fuel (by omega) (by omega) h1 (by omega) hS.2.2 (clean_right hcl) hLf.2 hg.2.2 effR
    rw [if_neg k2, if_neg k2]
    obtain ⟨t1, x, e1, -, S1, r1⟩ := query_ok hR hv N l ((l + r) / 2) (2 * o) (by omega) fuel t (by omega) (by omega)
      (by omega) h2 (.inr ⟨hS.2.1, clean_left hcl⟩) hLf.1
    obtain rfl : t1 = t := S1 (clean_left hcl)
    obtain ⟨t2, y, e2, -, S2, r2⟩ := query_ok hR hv N ((l + r) / 2 + 1) r (2 * o + 1) (by omega) fuel t1 (by omega) (by omega)
      h1 (by omega) (.inr ⟨hS.2.2, clean_right hcl⟩) hLf.2
    obtain rfl : t2 = t1 := S2 (clean_right hcl)
    rw [hL fuel (by omega) (by omega) (by omega) h2 hS.2.1 (clean_left hcl) hLf.1 hg.2.1 effL, e1, Out.ok_bind, Out.ok_bind]
    dsimp only
    rw [hRt fuel (by omega) (by omega) h1 (by omega) hS.2.2 (clean_right hcl) hLf.2 hg.2.2 effR, e2, Out.ok_bind, Out.ok_bind]
    have r1 := r1 hpos hg.2.1
    have r2 := r2 hpos hg.2.2
    rw [min_eq_left (by omega)] at r1
    rw [max_eq_left (by omega)] at r2
    dsimp only
    rw [hC (max l lv) ((l + r) / 2) (min r rv) x y (by omega) (by omega) (by omega) (by omega)
      (hR.congr _ _ _ _ _ (fun p q1 q2 => effL p (by omega) q2) r1)
      (hR.congr _ _ _ _ _ (fun p q1 q2 => effR p q1 (by omega)) r2), Out.ok_bind]

/-! ### additions of small numbers -/

/-- The size of the summand pending at a node. -/
def pend (nd : Node Int) : Int := if nd.hasAdd then |nd.add| else 0

theorem pend_nonneg (nd : Node Int) : 0 ≤ pend nd := by unfold pend; split <;> simp

/-- What is pending at `x` and at the nodes above it. -/
def chain (t : Nat → Node Int) (x : Nat) : Int := pend (t x) + if x ≤ 1 then 0 else chain t (x / 2)
termination_by x
decreasing_by omega

theorem chain_nonneg (t : Nat → Node Int) (x : Nat) : 0 ≤ chain t x := by
  induction x using Nat.strongRecOn with
  | _ x ih =>
    rw [chain]
    have := pend_nonneg (t x)
    split
    · omega
    · have := ih (x / 2) (by omega); omega

theorem pend_le_chain (t : Nat → Node Int) (x : Nat) : pend (t x) ≤ chain t x := by
  rw [chain]
  split
  · omega
  · have := chain_nonneg t (x / 2); omega

theorem chain_le {x : Nat} (t : Nat → Node Int) (h : x ≤ 1) : chain t x = pend (t x) := by rw [chain, if_pos h]; omega
theorem chain_gt {x : Nat} (t : Nat → Node Int) (h : ¬ x ≤ 1) : chain t x = pend (t x) + chain t (x / 2) := by
  rw [chain, if_neg h]

/-- The interval of a node; `(0, -1)` for the children of leaves. -/
def segOf (n : Nat) (x : Nat) : Int × Int :=
  if x ≤ 1 then (0, (n : Int) - 1) else
    let p := segOf n (x / 2)
    if p.1 < p.2 then (if x % 2 = 0 then (p.1, (p.1 + p.2) / 2) else ((p.1 + p.2) / 2 + 1, p.2)) else (0, -1)
termination_by x
decreasing_by omega

theorem segOf_one (n : Nat) : segOf n 1 = (0, (n : Int) - 1) := by rw [segOf]; simp

theorem segOf_left {n o : Nat} {l r : Int} (ho : 1 ≤ o) (h : segOf n o = (l, r)) (hlr : l < r) :
    segOf n (2 * o) = (l, (l + r) / 2) := by
  rw [segOf, if_neg (by omega), show 2 * o / 2 = o by omega, h]
  dsimp only
  rw [if_pos hlr, if_pos (by omega)]

theorem segOf_right {n o : Nat} {l r : Int} (ho : 1 ≤ o) (h : segOf n o = (l, r)) (hlr : l < r) :
    segOf n (2 * o + 1) = ((l + r) / 2 + 1, r) := by
  rw [segOf, if_neg (by omega), show (2 * o + 1) / 2 = o by omega, h]
  dsimp only
  rw [if_pos hlr, if_neg (by omega)]

/-- What a node stores is small. -/
def NodeSmall (V : Int) (nd : Node Int) (len g : Int) : Prop :=
  |nd.mn| ≤ V + g ∧ |nd.mx| ≤ V + g ∧ |nd.sm| ≤ len * (V + g)

/-- The invariant: no factors are pending; at each node, what is stored and what may still arrive is bounded by `B`. -/
structure Inv (n : Nat) (V : Int) (t : Nat → Node Int) (B : Nat → Int) : Prop where
  nomul : ∀ x, (t x).hasMul = false
  ex : ∃ G : Nat → Int, (∀ x, 0 ≤ G x) ∧ (∀ x, 1 ≤ x → chain t x + G x ≤ B x) ∧
    ∀ x, 1 ≤ x → ∀ l r, segOf n x = (l, r) → l ≤ r → NodeSmall V (t x) (r - l + 1) (G x)

theorem Inv.mono {n : Nat} {V : Int} {t : Nat → Node Int} {B B' : Nat → Int} (h : Inv n V t B)
    (hB : ∀ x, 1 ≤ x → B x ≤ B' x) : Inv n V t B' := by
  obtain ⟨G, h1, h2, h3⟩ := h.ex
  exact ⟨h.nomul, G, h1, fun x hx => (h2 x hx).trans (hB x hx), h3⟩

theorem settle_pend (nd : Node Int) (len : Int) : pend (settle nd len) = 0 := by simp [settle, pend]

theorem pushed_pend {nd c : Node Int} (hm : nd.hasMul = false) : pend (pushed nd c) ≤ pend c + pend nd := by
  have h1 := pend_nonneg c
  unfold pushed pend pushAdd
  simp only [hm, Bool.false_eq_true, if_false]
  cases ha : nd.hasAdd <;> cases hc : c.hasAdd <;> simp [hc]
  exact abs_add_le c.add nd.add

theorem pushed_nomul {nd c : Node Int} (hm : nd.hasMul = false) (hc : c.hasMul = false) : (pushed nd c).hasMul = false := by
  unfold pushed pushAdd
  simp only [hm, Bool.false_eq_true, if_false]
  cases nd.hasAdd <;> simp [hc]

theorem chain_upd_lt (t : Nat → Node Int) {o : Nat} (l r : Int) (_ : 1 ≤ o) (x : Nat) (hx : x < o) :
    chain (upd t o l r) x = chain t x := by
  induction x using Nat.strongRecOn with
  | _ x ih =>
    have hu : upd t o l r x = t x := by unfold upd; rw [if_neg (by omega), if_neg (by omega)]
    by_cases h : x ≤ 1
    · rw [chain_le _ h, chain_le _ h, hu]
    · rw [chain_gt _ h, chain_gt _ h, hu, ih (x / 2) (by omega) (by omega)]

theorem chain_upd_self (t : Nat → Node Int) {o : Nat} (l r : Int) (ho : 1 ≤ o) :
    chain (upd t o l r) o + pend (t o) = chain t o := by
  by_cases h : o ≤ 1
  · rw [chain_le _ h, chain_le _ h, upd_self, settle_pend]; omega
  · rw [chain_gt _ h, chain_gt _ h, upd_self, settle_pend, chain_upd_lt t l r ho _ (by omega)]; omega

theorem chain_upd (t : Nat → Node Int) {o : Nat} (l r : Int) (ho : 1 ≤ o) (hm : (t o).hasMul = false) (x : Nat) :
    chain (upd t o l r) x ≤ chain t x := by
  induction x using Nat.strongRecOn with
  | _ x ih =>
    by_cases e : x = o
    · subst e
      have := chain_upd_self t l r ho
      have := pend_nonneg (t x)
      omega
    · by_cases e2 : x = 2 * o ∨ x = 2 * o + 1
      · rw [chain_gt (x := x) _ (by omega), chain_gt (x := x) _ (by omega), upd_child t l r ho e2, show x / 2 = o by omega]
        have := chain_upd_self t l r ho
        have := pushed_pend (c := t x) hm
        omega
      · have hu : upd t o l r x = t x := by unfold upd; rw [if_neg e, if_neg e2]
        by_cases h : x ≤ 1
        · rw [chain_le _ h, chain_le _ h, hu]
        · rw [chain_gt _ h, chain_gt _ h, hu]
          have := ih (x / 2) (by omega)
          omega

theorem inv_upd {n : Nat} {V : Int} {t : Nat → Node Int} {B : Nat → Int} {o : Nat} {l r : Int} (ho : 1 ≤ o)
    (hseg : segOf n o = (l, r)) (hlr : l ≤ r) (I : Inv n V t B) : Inv n V (upd t o l r) B := by
  obtain ⟨G, g0, g1, g2⟩ := I.ex
  refine ⟨fun x => ?_, fun x => if x = o then G o + pend (t o) else G x, fun x => ?_, fun x hx => ?_, fun x hx l' r' hs hlr' => ?_⟩
  · unfold upd
    split
    · rfl
    · split
      · exact pushed_nomul (I.nomul o) (I.nomul x)
      · exact I.nomul x
  · dsimp only
    split
    · have := g0 o; have := pend_nonneg (t o); omega
    · exact g0 x
  · dsimp only
    split
    · rename_i e
      subst e
      have := chain_upd_self t l r ho
      have := g1 x hx
      omega
    · have := chain_upd t l r ho (I.nomul o) x
      have := g1 x hx
      omega
  · have hx2 := g2 x hx l' r' hs hlr'
    dsimp only
    by_cases e : x = o
    · subst e
      rw [hs] at hseg
      injection hseg with e1 e2
      subst e1 e2
      rw [if_pos rfl, upd_self]
      obtain ⟨a1, a2, a3⟩ := hx2
      have nm := I.nomul x
      unfold NodeSmall settle app pend
      simp only [nm, Bool.false_eq_true, if_false, Int.cast_id]
      cases (t x).hasAdd
      · simp only [Bool.false_eq_true, if_false, add_zero]
        exact ⟨a1, a2, a3⟩
      · simp only [if_true]
        refine ⟨?_, ?_, ?_⟩
        · have := abs_add_le (t x).mn (t x).add; linarith
        · have := abs_add_le (t x).mx (t x).add; linarith
        · have h1 := abs_add_le (t x).sm ((t x).add * (r' - l' + 1))
          rw [abs_mul, abs_of_nonneg (show (0 : Int) ≤ r' - l' + 1 by omega)] at h1
          nlinarith
    · rw [if_neg e]
      unfold upd
      rw [if_neg e]
      split
      · obtain ⟨p1, p2, p3⟩ := pushed_vals (t o) (t x)
        unfold NodeSmall
        rw [p1, p2, p3]; exact hx2
      · exact hx2

theorem isInt_abs {x : Int} (h : |x| ≤ INT_MAX) : IsInt x := by
  rw [abs_le] at h
  unfold IsInt INT_MIN INT_MAX at *
  omega

/-- `update` does not overflow. -/
theorem updateI_inv {n : Nat} {V A : Int} {t : Nat → Node Int} {B : Nat → Int} {o : Nat} {l r : Int} (ho : 1 ≤ o)
    (hseg : segOf n o = (l, r)) (hlr : l ≤ r) (hlen : r - l + 1 ≤ n) (hN : 2 * o + 1 < 4 * n) (I : Inv n V t B) (hV : 0 ≤ V)
    (hB : ∀ x, 1 ≤ x → B x ≤ A) (hA : (n : Int) * (V + A) ≤ INT_MAX) :
    updateI ⟨n, t⟩ o l r = .ok ⟨n, upd t o l r⟩ := by
  have ex := update_ok (t := ⟨n, t⟩) (l := l) (r := r) ho hN
  obtain ⟨G, g0, g1, g2⟩ := I.ex
  obtain ⟨a1, a2, a3⟩ := g2 o ho l r hseg hlr
  have hc := g1 o ho
  have hp := pend_le_chain t o
  have hpn := pend_nonneg (t o)
  have hG := g0 o
  have hBo := hB o ho
  have nm := I.nomul o
  have h0 : o < 4 * n := by omega
  have h1 : 2 * o < 4 * n := by omega
  have hA0 : 0 ≤ V + A := by omega
  have hn1 : (1 : Int) ≤ n := by omega
  have hbig : V + A ≤ INT_MAX := by nlinarith
  rw [← ex]
  unfold updateI update
  rw [at_ok (t := ⟨n, t⟩) h0, Out.ok_bind, Out.ok_bind]
  simp only [nm, Bool.false_eq_true, if_false, Out.ok_bind]
  rw [at_ok (t := ⟨n, t⟩) h0, Out.ok_bind, Out.ok_bind]
  cases ha : (t o).hasAdd
  · simp [ha]
  have hpo : pend (t o) = |(t o).add| := by simp [pend, ha]
  simp only [ha, if_true]
  unfold updateAddI
  have n1 : ¬ 2 * o = o := by omega
  have n2 : ¬ 2 * o + 1 = o := by omega
  have n3 : ¬ 2 * o + 1 = 2 * o := by omega
  have push : ∀ c, 1 ≤ c → c / 2 = o → 1 < c → pushAddI (t o).add (t c) = .ok (pushAdd (t o).add (t c)) := by
    intro c hc0 hc1 hc2
    unfold pushAddI pushAdd
    cases hcc : (t c).hasAdd
    · simp
    · simp only [if_true]
      have e := g1 c hc0
      rw [chain, if_neg (by omega), hc1] at e
      have e1 : pend (t c) = |(t c).add| := by simp [pend, hcc]
      have e2 := abs_add_le (t c).add (t o).add
      have e3 := hB c hc0
      have e4 := g0 c
      rw [int_ok (isInt_abs (by omega)), Out.ok_bind]
  have lenA : (r - l + 1) * (V + G o) + |(t o).add| * (r - l + 1) ≤ INT_MAX := by
    have : (r - l + 1) * (V + G o) + |(t o).add| * (r - l + 1) = (r - l + 1) * (V + G o + |(t o).add|) := by ring
    rw [this]
    calc (r - l + 1) * (V + G o + |(t o).add|) ≤ (r - l + 1) * (V + A) := by
          apply mul_le_mul_of_nonneg_left <;> omega
      _ ≤ n * (V + A) := mul_le_mul_of_nonneg_right hlen hA0
      _ ≤ INT_MAX := hA
  have m1 : |(t o).add * (r - l + 1)| = |(t o).add| * (r - l + 1) := by
    rw [abs_mul, abs_of_nonneg (show (0 : Int) ≤ r - l + 1 by omega)]
  have m2 : 0 ≤ (r - l + 1) * (V + G o) := mul_nonneg (by omega) (by omega)
  have s1 := abs_add_le (t o).mn (t o).add
  have s2 := abs_add_le (t o).mx (t o).add
  have s3 := abs_add_le (t o).sm ((t o).add * (r - l + 1))
  rw [int_ok (isInt_abs (by omega)), Out.ok_bind, int_ok (isInt_abs (by omega)), Out.ok_bind,
    int_ok (x := (t o).add * (r - l + 1)) (isInt_abs (by omega)), Out.ok_bind,
    int_ok (isInt_abs (by omega)), Out.ok_bind]
  rw [put_ok (t := ⟨n, t⟩) _ h0, put_ok (t := ⟨n, t⟩) _ h0, Out.ok_bind, Out.ok_bind, at_ok h1, at_ok h1, Out.ok_bind,
    Out.ok_bind]
  simp only [n1, if_false]
  rw [push (2 * o) (by omega) (by omega) (by omega), Out.ok_bind, put_ok _ h1, put_ok _ h1, Out.ok_bind, Out.ok_bind,
    at_ok hN, at_ok hN, Out.ok_bind, Out.ok_bind]
  simp only [n2, n3, if_false]
  rw [push (2 * o + 1) (by omega) (by omega) (by omega), Out.ok_bind]
  simp only [Int.cast_id]

/-- Queries do not overflow. -/
theorem queryI_inv {sel : Node Int → Int} {C : Int → Int → Out Int} {c : Int → Int → Int} {n : Nat} {V A : Int}
    (hV : 0 ≤ V) (hA : (n : Int) * (V + A) ≤ INT_MAX)
    (hs : ∀ nd len g, 1 ≤ len → 0 ≤ V + g → NodeSmall V nd len g → |sel nd| ≤ len * (V + g))
    (hC : ∀ x y p q : Int, 0 ≤ p → 0 ≤ q → |x| ≤ p → |y| ≤ q → p + q ≤ INT_MAX → C x y = .ok (c x y) ∧ |c x y| ≤ p + q)
    {lv rv : Int} (hv : lv ≤ rv) {B : Nat → Int} (hB : ∀ x, 1 ≤ x → B x ≤ A) : ∀ (l r : Int) (o : Nat), l ≤ r →
    ∀ (fuel : Nat) (t : Nat → Node Int), (r - l).toNat < fuel → 1 ≤ o → lv ≤ r → l ≤ rv → Fits (4 * n) l r o →
    segOf n o = (l, r) → r - l + 1 ≤ n → Inv n V t B →
    ∃ t' x, queryI sel C lv rv fuel l r o ⟨n, t⟩ = .ok (⟨n, t'⟩, x) ∧ Inv n V t' B ∧ |x| ≤ (r - l + 1) * (V + A) := by
  have hit : ∀ (l r : Int) (o : Nat) (t : Nat → Node Int), l ≤ r → 1 ≤ o → segOf n o = (l, r) → Inv n V t B →
      |sel (upd t o l r o)| ≤ (r - l + 1) * (V + A) := by
    intro l r o t hlr ho hseg I
    obtain ⟨G, g0, g1, g2⟩ := (inv_upd ho hseg hlr I).ex
    have e1 := g0 o
    have e2 := g1 o ho
    have e3 := chain_nonneg (upd t o l r) o
    have e4 := hB o ho
    have := hs _ _ _ (by omega) (by omega) (g2 o ho l r hseg hlr)
    exact this.trans (mul_le_mul_of_nonneg_left (by omega) (by omega))
  refine seg_ind ?_ ?_
  · intro l o fuel t hf ho h1 h2 hS hseg hlen I
    obtain ⟨fuel, rfl⟩ : ∃ k, fuel = k + 1 := ⟨fuel - 1, by omega⟩
    rw [queryI, updateI_inv ho hseg (le_refl l) hlen (fits_child hS) I hV hB hA, Out.ok_bind, if_pos ⟨h1, h2⟩,
      at_ok (fits_lt hS), Out.ok_bind]
    exact ⟨_, _, rfl, inv_upd ho hseg (le_refl l) I, hit l l o t (le_refl l) ho hseg I⟩
  · intro l r o hlr hL hR fuel t hf ho h1 h2 hS hseg hlen I
    obtain ⟨fuel, rfl⟩ : ∃ k, fuel = k + 1 := ⟨fuel - 1, by omega⟩
    rw [queryI, updateI_inv ho hseg hlr.le hlen (fits_child hS) I hV hB hA, Out.ok_bind]
    have I' := inv_upd ho hseg hlr.le I
    by_cases hc : lv ≤ l ∧ rv ≥ r
    · rw [if_pos hc, at_ok (fits_lt hS), Out.ok_bind]
      exact ⟨_, _, rfl, I', hit l r o t hlr.le ho hseg I⟩
    rw [if_neg hc]
    dsimp only
    rw [Fits, if_pos hlr] at hS
    have sl := segOf_left ho hseg hlr
    have sr := segOf_right ho hseg hlr
    have hVA : 0 ≤ V + A := by
      obtain ⟨G, g0, g1, g2⟩ := I.ex
      have := g0 o; have := g1 o ho; have := chain_nonneg t o; have := hB o ho
      omega
    have mono : ∀ k : Int, k ≤ r - l + 1 → k * (V + A) ≤ (r - l + 1) * (V + A) :=
      fun k hk => mul_le_mul_of_nonneg_right hk hVA
    by_cases c1 : rv ≤ (l + r) / 2
    · rw [if_pos c1]
      obtain ⟨t', x, e, I2, b⟩ := hL fuel _ (by omega) (by omega) (by omega) h2 hS.2.1 sl (by omega) I'
      exact ⟨t', x, e, I2, b.trans (mono _ (by omega))⟩
    rw [if_neg c1]
    by_cases c2 : lv > (l + r) / 2
    · rw [if_pos c2]
      obtain ⟨t', x, e, I2, b⟩ := hR fuel _ (by omega) (by omega) h1 (by omega) hS.2.2 sr (by omega) I'
      exact ⟨t', x, e, I2, b.trans (mono _ (by omega))⟩
    rw [if_neg c2]
    obtain ⟨t1, x, e1, I1, b1⟩ := hL fuel _ (by omega) (by omega) (by omega) h2 hS.2.1 sl (by omega) I'
    obtain ⟨t2, y, e2, I2, b2⟩ := hR fuel t1 (by omega) (by omega) h1 (by omega) hS.2.2 sr (by omega) I1
    rw [e1, Out.ok_bind]
    dsimp only
    rw [e2, Out.ok_bind]
    have tot : ((l + r) / 2 - l + 1) * (V + A) + (r - ((l + r) / 2 + 1) + 1) * (V + A) = (r - l + 1) * (V + A) := by ring
    have lim : (r - l + 1) * (V + A) ≤ INT_MAX := (mul_le_mul_of_nonneg_right hlen hVA).trans hA
    obtain ⟨k1, k2⟩ := hC x y _ _ (mul_nonneg (by omega) hVA) (mul_nonneg (by omega) hVA) b1 b2 (by rw [tot]; exact lim)
    dsimp only
    rw [k1, Out.ok_bind]
    exact ⟨t2, _, rfl, I2, by rw [← tot]; exact k2⟩

/-- Where an addition of `x` below `o` may arrive. -/
noncomputable def extra (o : Nat) (x : Int) (y : Nat) : Int := by classical exact if Desc o y then |x| else 0

theorem extra_nonneg (o : Nat) (x : Int) (y : Nat) : 0 ≤ extra o x y := by
  unfold extra; split <;> simp

theorem extra_desc {o y : Nat} (x : Int) (h : Desc o y) : extra o x y = |x| := by unfold extra; rw [if_pos h]
theorem extra_not {o y : Nat} (x : Int) (h : ¬ Desc o y) : extra o x y = 0 := by unfold extra; rw [if_neg h]

theorem extra_left (o : Nat) (x : Int) (y : Nat) : extra (2 * o) x y ≤ extra o x y := by
  by_cases h : Desc (2 * o) y
  · rw [extra_desc x h, extra_desc x (desc_of_left h)]
  · rw [extra_not x h]; exact extra_nonneg _ _ _

theorem extra_both {o : Nat} (ho : 1 ≤ o) (x : Int) (y : Nat) : extra (2 * o) x y + extra (2 * o + 1) x y ≤ extra o x y := by
  by_cases h : Desc (2 * o) y
  · rw [extra_not (o := 2 * o + 1) x fun h' => desc_disjoint ho h h']
    have := extra_left o x y
    omega
  · rw [extra_not x h]
    by_cases h' : Desc (2 * o + 1) y
    · rw [extra_desc x h', extra_desc x (desc_of_right h')]; omega
    · rw [extra_not x h']; have := extra_nonneg o x y; omega

/-- Additions do not overflow. -/
theorem changeI_inv {n : Nat} {V A : Int} (hV : 0 ≤ V) (hA : (n : Int) * (V + A) ≤ INT_MAX) (x : Int)
    {lv rv : Int} : ∀ (l r : Int) (o : Nat), l ≤ r →
    ∀ (fuel : Nat) (t : Nat → Node Int) (B : Nat → Int), (r - l).toNat < fuel → 1 ≤ o → lv ≤ r → l ≤ rv → Fits (4 * n) l r o →
    segOf n o = (l, r) → r - l + 1 ≤ n → (∀ y, 1 ≤ y → B y + extra o x y ≤ A) → Inv n V t B →
    ∃ t', changeI (fun nd => { nd with add := x, hasAdd := true }) lv rv fuel l r o ⟨n, t⟩ = .ok ⟨n, t'⟩ ∧
      Inv n V t' (fun y => B y + extra o x y) := by
  have cover : ∀ (l r : Int) (o : Nat), l ≤ r → ∀ (fuel : Nat) (t : Nat → Node Int) (B : Nat → Int), 1 ≤ o →
      Fits (4 * n) l r o → segOf n o = (l, r) → r - l + 1 ≤ n → (∀ y, 1 ≤ y → B y + extra o x y ≤ A) → Inv n V t B →
      lv ≤ l ∧ rv ≥ r →
      ∃ t', changeI (fun nd => { nd with add := x, hasAdd := true }) lv rv (fuel + 1) l r o ⟨n, t⟩ = .ok ⟨n, t'⟩ ∧
        Inv n V t' (fun y => B y + extra o x y) := by
    intro l r o hlr fuel t B ho hS hseg hlen hB I hc
    have hB' : ∀ y, 1 ≤ y → B y ≤ A := fun y hy => by
      have := hB y hy; have := extra_nonneg o x y; omega
    rw [changeI, updateI_inv ho hseg hlr hlen (fits_child hS) I hV hB' hA, Out.ok_bind, if_pos hc, at_ok (fits_lt hS),
      Out.ok_bind, put_ok _ (fits_lt hS)]
    have I' := inv_upd ho hseg hlr I
    have hp : pend (upd t o l r o) = 0 := by rw [upd_self, settle_pend]
    generalize upd t o l r = u at I' hp ⊢
    refine ⟨_, rfl, fun y => ?_, ?_⟩
    · dsimp only
      split
      · exact I'.nomul o
      · exact I'.nomul y
    · obtain ⟨G, g0, g1, g2⟩ := I'.ex
      refine ⟨G, g0, fun y hy => ?_, fun y hy l' r' hs' hlr' => ?_⟩
      · have key : ∀ y, 1 ≤ y → chain (fun y => if y = o then { u o with add := x, hasAdd := true } else u y) y
            ≤ chain u y + extra o x y := by
          intro y
          induction y using Nat.strongRecOn with
          | _ y ih =>
            intro hy
            by_cases e : y = o
            · subst e
              have pe : pend { u y with add := x, hasAdd := true } = |x| := by simp [pend]
              by_cases h : y ≤ 1
              · rw [chain_le _ h, chain_le _ h, if_pos rfl, hp, extra_desc x (desc_self y), pe]; omega
              · rw [chain_gt _ h, chain_gt _ h, if_pos rfl, hp, extra_desc x (desc_self y), pe]
                have := ih (y / 2) (by omega) (by omega)
                rw [extra_not x (fun hd => by have := desc_le hd; omega)] at this
                omega
            · by_cases h : y ≤ 1
              · rw [chain_le _ h, chain_le _ h, if_neg e]; have := extra_nonneg o x y; omega
              · rw [chain_gt _ h, chain_gt _ h, if_neg e]
                have := ih (y / 2) (by omega) (by omega)
                have : extra o x (y / 2) ≤ extra o x y := by
                  by_cases hd : Desc o (y / 2)
                  · obtain ⟨d, hd'⟩ := hd
                    rw [extra_desc x ⟨d, hd'⟩, extra_desc x ⟨d + 1, by
                      rw [pow_succ, mul_comm, ← Nat.div_div_eq_div_mul, hd']⟩]
                  · rw [extra_not x hd]; exact extra_nonneg _ _ _
                omega
        have h1 := key y hy
        have h2 := g1 y hy
        dsimp only at h1 ⊢
        omega
      · have := g2 y hy l' r' hs' hlr'
        dsimp only
        split
        · rename_i e; subst e; exact this
        · exact this
  refine seg_ind ?_ ?_
  · intro l o fuel t B hf ho h1 h2 hS hseg hlen hB I
    obtain ⟨fuel, rfl⟩ : ∃ k, fuel = k + 1 := ⟨fuel - 1, by omega⟩
    exact cover l l o (le_refl l) fuel t B ho hS hseg hlen hB I ⟨h1, h2⟩
  · intro l r o hlr hL hR fuel t B hf ho h1 h2 hS hseg hlen hB I
    obtain ⟨fuel, rfl⟩ : ∃ k, fuel = k + 1 := ⟨fuel - 1, by omega⟩
    by_cases hc : lv ≤ l ∧ rv ≥ r
    · exact cover l r o hlr.le fuel t B ho hS hseg hlen hB I hc
    have hB' : ∀ y, 1 ≤ y → B y ≤ A := fun y hy => by
      have := hB y hy; have := extra_nonneg o x y; omega
    rw [changeI, updateI_inv ho hseg hlr.le hlen (fits_child hS) I hV hB' hA, Out.ok_bind, if_neg hc]
    have I' := inv_upd ho hseg hlr.le I
    rw [Fits, if_pos hlr] at hS
    have sl := segOf_left ho hseg hlr
    have sr := segOf_right ho hseg hlr
    generalize upd t o l r = u at I' ⊢
    have left : ∃ t1, (if lv ≤ (l + r) / 2 then
          changeI (fun nd => { nd with add := x, hasAdd := true }) lv rv fuel l ((l + r) / 2) (2 * o) ⟨n, u⟩ else .ok ⟨n, u⟩)
          = .ok ⟨n, t1⟩ ∧ Inv n V t1 (fun y => B y + extra (2 * o) x y) := by
      by_cases c : lv ≤ (l + r) / 2
      · rw [if_pos c]
        exact hL fuel u B (by omega) (by omega) c h2 hS.2.1 sl (by omega)
          (fun y hy => by have := hB y hy; have := extra_left o x y; omega) I'
      · rw [if_neg c]
        exact ⟨u, rfl, I'.mono fun y _ => by have := extra_nonneg (2 * o) x y; omega⟩
    obtain ⟨t1, e1, I1⟩ := left
    dsimp only
    rw [e1, Out.ok_bind]
    by_cases c : rv > (l + r) / 2
    · rw [if_pos c]
      obtain ⟨t2, e2, I2⟩ := hR fuel t1 _ (by omega) (by omega) h1 (by omega) hS.2.2 sr (by omega)
        (fun y hy => by have := hB y hy; have := extra_both ho x y; omega) I1
      exact ⟨t2, e2, I2.mono fun y hy => by have := extra_both ho x y; omega⟩
    · rw [if_neg c]
      exact ⟨t1, rfl, I1.mono fun y hy => by have := extra_left o x y; omega⟩

/-- A freshly built tree is small. -/
theorem inv_build {v : List Int} {V : Int} (hV : ∀ x ∈ v, |x| ≤ V) {t : Nat → Node Int} (st : St v t)
    (hcl : ∀ x, (t x).hasAdd = false ∧ (t x).hasMul = false) (g : Good True 0 ((v.length : Int) - 1) t 0 ((v.length : Int) - 1) 1) :
    Inv v.length V t (fun _ => 0) := by
  have app_id : ∀ x y, app (t x) y = y := fun x y => by simp [app, (hcl x).1, (hcl x).2]
  have key : ∀ x, 1 ≤ x → ∀ l r, segOf v.length x = (l, r) → l ≤ r → 0 ≤ l ∧ r < v.length ∧
      Good True 0 ((v.length : Int) - 1) t l r x ∧ ∀ p, l ≤ p → p ≤ r → eff t l r x p = val v p := by
    intro x
    induction x using Nat.strongRecOn with
    | _ x ih =>
      intro hx l r hs hlr
      by_cases h : x = 1
      · subst h
        rw [segOf_one] at hs
        injection hs with e1 e2
        subst e1 e2
        exact ⟨le_refl _, by omega, g, fun p h1 h2 => st.eff p h1 (by omega)⟩
      · rw [segOf, if_neg (by omega)] at hs
        rcases hp : segOf v.length (x / 2) with ⟨l0, r0⟩
        rw [hp] at hs
        dsimp only at hs
        by_cases hlr0 : l0 < r0
        · rw [if_pos hlr0] at hs
          obtain ⟨i1, i2, i3, i4⟩ := ih (x / 2) (by omega) (by omega) l0 r0 hp hlr0.le
          rw [Good, if_pos hlr0] at i3
          by_cases hx2 : x % 2 = 0
          · rw [if_pos hx2] at hs
            injection hs with e1 e2
            subst e1 e2
            rw [show 2 * (x / 2) = x by omega] at i3
            refine ⟨i1, by omega, i3.2.1, fun p h1 h2 => ?_⟩
            rw [← i4 p h1 (by omega), eff_eq t l0 r0, app_id, below, if_pos hlr0, if_pos h2, show 2 * (x / 2) = x by omega]
          · rw [if_neg hx2] at hs
            injection hs with e1 e2
            subst e1 e2
            rw [show 2 * (x / 2) + 1 = x by omega] at i3
            refine ⟨by omega, i2, i3.2.2, fun p h1 h2 => ?_⟩
            rw [← i4 p (by omega) h2, eff_eq t l0 r0, app_id, below, if_pos hlr0, if_neg (by omega),
              show 2 * (x / 2) + 1 = x by omega]
        · rw [if_neg hlr0] at hs
          injection hs with e1 e2
          omega
  refine ⟨fun x => (hcl x).2, fun _ => 0, fun _ => le_refl _, fun x hx => ?_, fun x hx l r hs hlr => ?_⟩
  · have : chain t x = 0 := by
      clear hx
      induction x using Nat.strongRecOn with
      | _ x ih =>
        rw [chain]
        have : pend (t x) = 0 := by simp [pend, (hcl x).1]
        rw [this]
        split
        · rfl
        · rw [ih (x / 2) (by omega)]; rfl
    rw [this]; simp
  · obtain ⟨k0, k1, k2, k3⟩ := key x hx l r hs hlr
    rw [Good] at k2
    have own := k2.1 k0 (by omega)
    have bl : ∀ p, l ≤ p → p ≤ r → |below t l r x p| ≤ V := by
      intro p h1 h2
      have e := k3 p h1 h2
      rw [eff_eq, app_id] at e
      rw [e]
      have := val_some v (p := p) (by omega) (by omega)
      exact hV _ (List.mem_of_getElem? this)
    unfold NodeSmall
    rw [add_zero]
    refine ⟨?_, ?_, ?_⟩
    · obtain ⟨⟨p, h1, h2, h3⟩, -⟩ := own.min trivial
      rw [h3]; exact bl p h1 h2
    · obtain ⟨⟨p, h1, h2, h3⟩, -⟩ := own.max trivial
      rw [h3]; exact bl p h1 h2
    · rw [own.sum]
      refine (Finset.abs_sum_le_sum_abs _ _).trans ?_
      refine (Finset.sum_le_card_nsmul _ _ V fun p hp => ?_).trans ?_
      · rw [Finset.mem_Icc] at hp; exact bl p hp.1 hp.2
      · rw [Int.card_Icc, nsmul_eq_mul, Int.toNat_of_nonneg (by omega)]
        have : r + 1 - l = r - l + 1 := by ring
        rw [this]

/-! ### histories -/

theorem sums_of_allFit {v : List Int} (h : AllFit v) : SumsFit (val v) 0 ((v.length : Int) - 1) := by
  intro a b h1 h2 h3
  have hr : InRange v.length a b := ⟨h1, h2, by omega⟩
  rw [show (∑ p ∈ Finset.Icc a b, val v p) = (slice v a b).sum from isSum_of hr rfl]
  exact h a b hr

theorem buildI_eq {fuel : Nat} {v : List Int} (hv : v ≠ []) (hf : v.length ≤ fuel) (h : AllFit v) :
    buildI fuel v = build fuel v := by
  have hl : 1 ≤ v.length := by cases v with | nil => exact absurd rfl hv | cons => simp
  exact initI_eq v (val v) (fun p => val_some v) v.length 0 ((v.length : Int) - 1) 1 (by omega) fuel _ (by omega) (le_refl 1)
    (room_root hl) (le_refl 0) (by omega) (fun x _ => ⟨rfl, rfl⟩) (sums_of_allFit h)

/-- Queries on a tree without updates. -/
theorem queryI_static {nn : Prop} {sel : Node Int → Int} {c : Int → Int → Int} {C : Int → Int → Out Int}
    {R : Int → Int → (Int → Int) → Int → Prop} (hR : Agg nn sel c R) {v : List Int} (hv : v ≠ []) {fuel : Nat}
    (hf : v.length ≤ fuel) {t : Nat → Node Int} (st : St v t) (hcl : Clean t 1) (hp : Pos nn t)
    (hg : ∀ a b, Good nn a b t 0 ((v.length : Int) - 1) 1) {a b : Int} (hr : InRange v.length a b)
    (hC : ∀ a' m b' x y, a ≤ a' → a' ≤ m → m < b' → b' ≤ b → R a' m (val v) x → R (m + 1) b' (val v) y → C x y = .ok (c x y)) :
    queryI sel C a b fuel 0 ((v.length : Int) - 1) 1 ⟨v.length, t⟩ =
      query sel c a b fuel 0 ((v.length : Int) - 1) 1 ⟨v.length, t⟩ := by
  have hl : 1 ≤ v.length := by cases v with | nil => exact absurd rfl hv | cons => simp
  obtain ⟨r1, r2, r3⟩ := hr
  exact queryI_eq hR r2 hC v.length hp 0 ((v.length : Int) - 1) 1 (by omega) fuel (by omega) (le_refl 1) (by omega) (by omega)
    (room_root hl) hcl st.leafy (hg a b) (fun p h1 h2 => st.eff p h1 (by omega))

/-- the three queries on a small tree -/
theorem queries_inv {n : Nat} {V A : Int} (hV : 0 ≤ V) (hA : (n : Int) * (V + A) ≤ INT_MAX) {fuel : Nat} (hf : n ≤ fuel)
    (hF : Fits (4 * n) 0 ((n : Int) - 1) 1) {t : Nat → Node Int} (I : Inv n V t fun _ => A) {a b : Int} (hr : InRange n a b) :
    (∃ t' x, queryMaxI fuel ⟨n, t⟩ a b = .ok (⟨n, t'⟩, x) ∧ Inv n V t' fun _ => A) ∧
    (∃ t' x, queryMinI fuel ⟨n, t⟩ a b = .ok (⟨n, t'⟩, x) ∧ Inv n V t' fun _ => A) ∧
    (∃ t' x, querySumI fuel ⟨n, t⟩ a b = .ok (⟨n, t'⟩, x) ∧ Inv n V t' fun _ => A) := by
  obtain ⟨r1, r2, r3⟩ := hr
  have go : ∀ {sel : Node Int → Int} {C : Int → Int → Out Int} {c : Int → Int → Int}
      (_ : ∀ nd len g, 1 ≤ len → 0 ≤ V + g → NodeSmall V nd len g → |sel nd| ≤ len * (V + g))
      (_ : ∀ x y p q : Int, 0 ≤ p → 0 ≤ q → |x| ≤ p → |y| ≤ q → p + q ≤ INT_MAX → C x y = .ok (c x y) ∧ |c x y| ≤ p + q),
      ∃ t' x, queryI sel C a b fuel 0 ((n : Int) - 1) 1 ⟨n, t⟩ = .ok (⟨n, t'⟩, x) ∧ Inv n V t' fun _ => A := by
    intro sel C c h1 h2
    obtain ⟨t', x, e, I', -⟩ := queryI_inv hV hA h1 h2 r2 (fun _ _ => le_refl A) 0 ((n : Int) - 1) 1 (by omega) fuel t (by omega)
      (le_refl 1) (by omega) (by omega) hF (segOf_one n) (by omega) I
    exact ⟨t', x, e, I'⟩
  refine ⟨go (c := max) ?_ ?_, go (c := min) ?_ ?_, go (c := (· + ·)) ?_ ?_⟩
  · intro nd len g h1 h2 h; have := h.2.1; nlinarith
  · intro x y p q h1 h2 h3 h4 _
    refine ⟨rfl, ?_⟩
    rw [abs_le] at *
    omega
  · intro nd len g h1 h2 h; have := h.1; nlinarith
  · intro x y p q h1 h2 h3 h4 _
    refine ⟨rfl, ?_⟩
    rw [abs_le] at *
    omega
  · intro nd len g h1 h2 h; exact h.2.2
  · intro x y p q h1 h2 h3 h4 h5
    have := abs_add_le x y
    exact ⟨int_ok (isInt_abs (by omega)), by omega⟩

theorem weight_nonneg (op : Op Int) : 0 ≤ Op.weight op := by cases op <;> simp [Op.weight]

theorem runFromI_inv {n : Nat} {V : Int} (hV : 0 ≤ V) {fuel : Nat} (hf : n ≤ fuel)
    (hF : Fits (4 * n) 0 ((n : Int) - 1) 1) (ops : List (Op Int)) : ∀ {A : Int} {t : Nat → Node Int},
    (∀ op ∈ ops, Op.InRange n op) → (∀ op ∈ ops, Op.NoMul op) → (n : Int) * (V + (A + (ops.map Op.weight).sum)) ≤ INT_MAX →
    Inv n V t (fun _ => A) →
    ∃ t', ops.foldlM (execI fuel) ⟨n, t⟩ = .ok ⟨n, t'⟩ ∧ Inv n V t' fun _ => A + (ops.map Op.weight).sum := by
  induction ops with
  | nil => intro A t _ _ _ I; exact ⟨t, rfl, by simpa using I⟩
  | cons op ops ih =>
    intro A t hr hm hA I
    have hws : 0 ≤ (ops.map Op.weight).sum := List.sum_nonneg fun x hx => by
      obtain ⟨o, -, rfl⟩ := List.mem_map.1 hx; exact weight_nonneg o
    have hw := weight_nonneg op
    rw [List.map_cons, List.sum_cons] at hA
    have step : ∃ t', execI fuel ⟨n, t⟩ op = .ok ⟨n, t'⟩ ∧ Inv n V t' fun _ => A + Op.weight op := by
      have hop := hr op (by simp)
      have hA' : (n : Int) * (V + A) ≤ INT_MAX :=
        (mul_le_mul_of_nonneg_left (by omega) (Int.natCast_nonneg n)).trans hA
      have hAo : (n : Int) * (V + (A + Op.weight op)) ≤ INT_MAX :=
        (mul_le_mul_of_nonneg_left (by omega) (Int.natCast_nonneg n)).trans hA
      cases op with
      | mul lv rv x => exact False.elim (hm (.mul lv rv x) (by simp))
      | add lv rv x =>
        obtain ⟨r1, r2, r3⟩ := hop
        have hx : ∀ y, extra 1 x y ≤ |x| := fun y => by
          unfold extra; split <;> simp
        obtain ⟨t', e, I'⟩ := changeI_inv hV hAo x (lv := lv) (rv := rv) 0 ((n : Int) - 1) 1 (by omega) fuel t (fun _ => A)
          (by omega) (le_refl 1) (by omega) (by omega) hF (segOf_one n) (by omega)
          (fun y _ => by have := hx y; simp only [Op.weight]; omega) I
        exact ⟨t', e, I'.mono fun y _ => by have := hx y; simp only [Op.weight]; omega⟩
      | max lv rv =>
        obtain ⟨⟨t', x, e, I'⟩, -, -⟩ := queries_inv hV hA' hf hF I hop
        exact ⟨t', by rw [execI, e]; rfl, by simpa [Op.weight] using I'⟩
      | min lv rv =>
        obtain ⟨-, ⟨t', x, e, I'⟩, -⟩ := queries_inv hV hA' hf hF I hop
        exact ⟨t', by rw [execI, e]; rfl, by simpa [Op.weight] using I'⟩
      | sum lv rv =>
        obtain ⟨-, -, ⟨t', x, e, I'⟩⟩ := queries_inv hV hA' hf hF I hop
        exact ⟨t', by rw [execI, e]; rfl, by simpa [Op.weight] using I'⟩
    obtain ⟨t1, e1, I1⟩ := step
    obtain ⟨t2, e2, I2⟩ := ih (fun o ho => hr o (by simp [ho])) (fun o ho => hm o (by simp [ho]))
      (by rw [show A + Op.weight op + (ops.map Op.weight).sum = A + (Op.weight op + (ops.map Op.weight).sum) by ring]; exact hA) I1
    refine ⟨t2, by rw [List.foldlM_cons, e1, Out.ok_bind, e2], ?_⟩
    rw [List.map_cons, List.sum_cons]
    exact I2.mono fun _ _ => by omega

theorem allFit_of_small {v : List Int} {V : Int} (hV0 : 0 ≤ V) (hV : ∀ x ∈ v, |x| ≤ V) (hM : (v.length : Int) * V ≤ INT_MAX) :
    AllFit v := by
  intro a b hr
  have key : ∀ w : List Int, (∀ x ∈ w, |x| ≤ V) → |w.sum| ≤ w.length * V := by
    intro w
    induction w with
    | nil => intro _; simp
    | cons x w ih =>
      intro h
      have h1 := ih fun y hy => h y (by simp [hy])
      have h2 := h x (by simp)
      have h3 := abs_add_le x w.sum
      rw [List.sum_cons, List.length_cons]
      push_cast
      linarith
  have hs := key (slice v a b) fun x hx => hV x (List.mem_of_mem_drop (List.mem_of_mem_take hx))
  have hl : (slice v a b).length ≤ v.length := by simp [slice]
  exact isInt_abs (hs.trans ((mul_le_mul_of_nonneg_right (by omega) hV0).trans hM))

theorem runI_inv {fuel : Nat} {v : List Int} (hv : v ≠ []) (hf : v.length ≤ fuel)
    (hF : Fits (4 * v.length) 0 ((v.length : Int) - 1) 1) (ops : List (Op Int))
    (hr : ∀ op ∈ ops, Op.InRange v.length op) (hm : ∀ op ∈ ops, Op.NoMul op) {V : Int} (hV : ∀ x ∈ v, |x| ≤ V)
    (hA : (v.length : Int) * (V + (ops.map Op.weight).sum) ≤ INT_MAX) :
    ∃ t, runI fuel v ops = .ok ⟨v.length, t⟩ ∧ Inv v.length V t fun _ => (ops.map Op.weight).sum := by
  have hV0 : 0 ≤ V := by
    obtain ⟨x, w, rfl⟩ := List.exists_cons_of_ne_nil hv
    have := hV x (by simp); have := abs_nonneg x; omega
  have hws : 0 ≤ (ops.map Op.weight).sum := List.sum_nonneg fun x hx => by
    obtain ⟨o, -, rfl⟩ := List.mem_map.1 hx; exact weight_nonneg o
  have hfit : AllFit v := allFit_of_small hV0 hV ((mul_le_mul_of_nonneg_left (by omega) (Int.natCast_nonneg _)).trans hA)
  obtain ⟨t, e, st, c, ps, g⟩ := build_ok fuel v hv hf
  have eI : buildI fuel v = .ok ⟨v.length, t⟩ := (buildI_eq hv hf hfit).trans e
  have I0 : Inv v.length V t fun _ => 0 := by
    refine inv_build hV st (fun x => ?_) (g True 0 _)
    by_cases h : Desc 1 x
    · exact c x h
    · have e' := e
      unfold build at e'
      have hl : 1 ≤ v.length := by cases v with | nil => exact absurd rfl hv | cons => simp
      obtain ⟨t', e2, fr, -⟩ := init_ok v (val v) (fun p => val_some v) v.length 0 ((v.length : Int) - 1) 1
        (by omega) fuel (fun _ => ⟨v.headD 0, v.headD 0, v.headD 0, v.headD 0, v.headD 0, false, false⟩)
        (by omega) (le_refl 1) (room_root hl) (le_refl 0) (by omega) (fun x _ => ⟨rfl, rfl⟩)
      rw [e2] at e'
      injection e' with e'
      injection e' with _ e'
      rw [← e', fr x h]
      exact ⟨rfl, rfl⟩
  obtain ⟨t', e', I'⟩ := runFromI_inv hV0 hf hF ops (A := 0) hr hm (by simpa using hA) I0
  exact ⟨t', by rw [runI, eI, Out.ok_bind, e'], by simpa using I'⟩

end SegmentTree
