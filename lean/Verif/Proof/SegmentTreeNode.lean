import Verif.Proof.SegmentTree
import Verif.Spec.SegmentTreeNode

/-! # Calls with a node, and `init` on a tree in use -/

namespace SegmentTree
open Cpp Spec

set_option linter.unusedSectionVars false
set_option linter.unusedSimpArgs false

variable {α : Type} [CommRing α] [LinearOrder α] [IsStrictOrderedRing α]

/-! ### clipping to a node -/

theorem query_cut {sel : Node α → α} {comb : α → α → α} {lv rv L R : Int} (hv : lv ≤ rv) : ∀ (fuel : Nat) (l r : Int) (o : Nat)
    (t : Seg α), L ≤ l → l ≤ r → r ≤ R → lv ≤ r → l ≤ rv →
    query sel comb lv rv fuel l r o t = query sel comb (max lv L) (min rv R) fuel l r o t := by
  intro fuel
  induction fuel with
  | zero => intro l r o t _ _ _ _ _; rfl
  | succ fuel ih =>
    intro l r o t h0 hlr hr h1 h2
    rw [query, query]
    congr 1
    funext t'
    by_cases hc : lv ≤ l ∧ rv ≥ r
    · rw [if_pos hc, if_pos (by omega)]
    · rw [if_neg hc, if_neg (show ¬ (max lv L ≤ l ∧ min rv R ≥ r) by omega)]
      dsimp only
      by_cases c1 : rv ≤ (l + r) / 2
      · rw [if_pos c1, if_pos (by omega)]
        exact ih _ _ _ _ h0 (by omega) (by omega) (by omega) h2
      · rw [if_neg c1, if_neg (show ¬ min rv R ≤ (l + r) / 2 by omega)]
        by_cases c2 : lv > (l + r) / 2
        · rw [if_pos c2, if_pos (by omega)]
          exact ih _ _ _ _ (by omega) (by omega) hr h1 (by omega)
        · rw [if_neg c2, if_neg (show ¬ max lv L > (l + r) / 2 by omega), ih _ _ _ _ h0 (by omega) (by omega) (by omega) h2]
          congr 1
          funext x
          rw [ih _ _ _ _ (by omega) (by omega) hr h1 (by omega)]

theorem change_cut {tag : Node α → Node α} {lv rv L R : Int} : ∀ (fuel : Nat) (l r : Int) (o : Nat)
    (t : Seg α), L ≤ l → l ≤ r → r ≤ R → lv ≤ r → l ≤ rv →
    change tag lv rv fuel l r o t = change tag (max lv L) (min rv R) fuel l r o t := by
  intro fuel
  induction fuel with
  | zero => intro l r o t _ _ _ _ _; rfl
  | succ fuel ih =>
    intro l r o t h0 hlr hr h1 h2
    rw [change, change]
    congr 1
    funext t'
    by_cases hc : lv ≤ l ∧ rv ≥ r
    · rw [if_pos hc, if_pos (by omega)]
    · rw [if_neg hc, if_neg (show ¬ (max lv L ≤ l ∧ min rv R ≥ r) by omega)]
      dsimp only
      have e1 : (if lv ≤ (l + r) / 2 then change tag lv rv fuel l ((l + r) / 2) (2 * o) t' else .ok t') =
          (if max lv L ≤ (l + r) / 2 then change tag (max lv L) (min rv R) fuel l ((l + r) / 2) (2 * o) t' else .ok t') := by
        by_cases c : lv ≤ (l + r) / 2
        · rw [if_pos c, if_pos (by omega)]
          exact ih _ _ _ _ h0 (by omega) (by omega) (by omega) h2
        · rw [if_neg c, if_neg (show ¬ max lv L ≤ (l + r) / 2 by omega)]
      rw [e1]
      congr 1
      funext t1
      by_cases c : rv > (l + r) / 2
      · rw [if_pos c, if_pos (by omega)]
        exact ih _ _ _ _ (by omega) (by omega) hr h1 (by omega)
      · rw [if_neg c, if_neg (show ¬ min rv R > (l + r) / 2 by omega)]

/-! ### paths without pending operations -/

/-- nothing pending at a node -/
def Idle (nd : Node α) : Prop := nd.hasAdd = false ∧ nd.hasMul = false

/-- nothing pending from node `o` down to position `p` -/
def Free (t : Nat → Node α) (l r : Int) (o : Nat) (p : Int) : Prop :=
  Idle (t o) ∧ (if l < r then
    (if p ≤ (l + r) / 2 then Free t l ((l + r) / 2) (2 * o) p else Free t ((l + r) / 2 + 1) r (2 * o + 1) p) else True)
termination_by (r - l).toNat
decreasing_by all_goals omega

theorem free_idle {t : Nat → Node α} {l r : Int} {o : Nat} {p : Int} (h : Free t l r o p) : Idle (t o) := by
  rw [Free] at h; exact h.1

theorem free_left {t : Nat → Node α} {l r : Int} {o : Nat} {p : Int} (hlr : l < r) (hp : p ≤ (l + r) / 2) (h : Free t l r o p) :
    Free t l ((l + r) / 2) (2 * o) p := by
  rw [Free, if_pos hlr, if_pos hp] at h; exact h.2

theorem free_right {t : Nat → Node α} {l r : Int} {o : Nat} {p : Int} (hlr : l < r) (hp : ¬ p ≤ (l + r) / 2)
    (h : Free t l r o p) : Free t ((l + r) / 2 + 1) r (2 * o + 1) p := by
  rw [Free, if_pos hlr, if_neg hp] at h; exact h.2

theorem free_of {t : Nat → Node α} {l r : Int} {o : Nat} {p : Int} (h0 : Idle (t o))
    (hL : l < r → p ≤ (l + r) / 2 → Free t l ((l + r) / 2) (2 * o) p)
    (hR : l < r → ¬ p ≤ (l + r) / 2 → Free t ((l + r) / 2 + 1) r (2 * o + 1) p) : Free t l r o p := by
  rw [Free]
  refine ⟨h0, ?_⟩
  split
  · rename_i h
    split
    · rename_i c; exact hL h c
    · rename_i c; exact hR h c
  · trivial

theorem free_congr {t t' : Nat → Node α} : ∀ (l r : Int) (o : Nat), l ≤ r → (∀ x, Desc o x → t' x = t x) →
    ∀ p, Free t l r o p → Free t' l r o p := by
  refine seg_ind (P := fun l r o => (∀ x, Desc o x → t' x = t x) → ∀ p, Free t l r o p → Free t' l r o p) ?_ ?_
  · intro l o h p hf
    exact free_of (by rw [h o (desc_self o)]; exact free_idle hf) (fun h => by omega) (fun h => by omega)
  · intro l r o hlr hL hR h p hf
    exact free_of (by rw [h o (desc_self o)]; exact free_idle hf)
      (fun _ c => hL (fun x hx => h x (desc_of_left hx)) p (free_left hlr c hf))
      (fun _ c => hR (fun x hx => h x (desc_of_right hx)) p (free_right hlr c hf))

theorem free_clean {t : Nat → Node α} : ∀ (l r : Int) (o : Nat), l ≤ r → Clean t o → ∀ p, Free t l r o p := by
  refine seg_ind (P := fun l r o => Clean t o → ∀ p, Free t l r o p) ?_ ?_
  · intro l o h p
    exact free_of (h o (desc_self o)) (fun h => by omega) (fun h => by omega)
  · intro l r o hlr hL hR h p
    exact free_of (h o (desc_self o)) (fun _ _ => hL (clean_left h) p) (fun _ _ => hR (clean_right h) p)

theorem upd_idle {t : Nat → Node α} {o : Nat} (l r : Int) (h : Idle (t o)) : upd t o l r = t := by
  funext x
  obtain ⟨h1, h2⟩ := h
  unfold upd
  by_cases e : x = o
  · subst e
    rw [if_pos rfl]
    cases hx : t x
    rw [hx] at h1 h2
    simp only at h1 h2
    subst h1; subst h2
    simp [settle, app]
  · rw [if_neg e]
    split
    · simp [pushed, h1, h2]
    · rfl

theorem settle_idle (nd : Node α) (len : Int) : Idle (settle nd len) := ⟨rfl, rfl⟩

/-- what `update` does if it is defined -/
theorem update_eq {t t' : Seg α} {o : Nat} {l r : Int} (ho : 1 ≤ o) (h : update t o l r = .ok t') :
    t' = ⟨t.size, upd t.node o l r⟩ := by
  by_cases h3 : 2 * o + 1 < 4 * t.size
  · rw [update_ok ho h3] at h
    cases h; rfl
  · have hi : Idle (t.node o) := by
      unfold update at h
      obtain ⟨nd, e, h⟩ := Out.bind_eq_ok.1 h
      have h0 : o < 4 * t.size := by
        by_contra hc
        rw [Seg.at, if_neg hc] at e; cases e
      rw [at_ok h0] at e
      cases e
      by_cases hm : (t.node o).hasMul = true
      · rw [if_pos hm] at h
        obtain ⟨t1, e1, -⟩ := Out.bind_eq_ok.1 h
        obtain ⟨t2, e2, e3⟩ := Out.bind_eq_ok.1 e1
        obtain ⟨c, -, e4⟩ := Out.bind_eq_ok.1 e3
        obtain ⟨t3, e5, e6⟩ := Out.bind_eq_ok.1 e4
        obtain ⟨c', e7, -⟩ := Out.bind_eq_ok.1 e6
        have s2 : t2.size = t.size := by
          rw [put_ok _ h0] at e2; cases e2; rfl
        have s3 : t3.size = t2.size := by
          unfold Seg.put at e5; split at e5 <;> cases e5; rfl
        unfold Seg.at at e7
        rw [if_neg (by rw [s3, s2]; exact h3)] at e7
        cases e7
      · rw [if_neg hm] at h
        obtain ⟨t1, e1, h⟩ := Out.bind_eq_ok.1 h
        cases e1
        rw [at_ok h0, Out.ok_bind] at h
        by_cases ha : (t.node o).hasAdd = true
        · rw [if_pos ha] at h
          obtain ⟨t2, e2, e3⟩ := Out.bind_eq_ok.1 h
          obtain ⟨c, -, e4⟩ := Out.bind_eq_ok.1 e3
          obtain ⟨t3, e5, e6⟩ := Out.bind_eq_ok.1 e4
          obtain ⟨c', e7, -⟩ := Out.bind_eq_ok.1 e6
          have s2 : t2.size = t.size := by
            rw [put_ok _ h0] at e2; cases e2; rfl
          have s3 : t3.size = t2.size := by
            unfold Seg.put at e5; split at e5 <;> cases e5; rfl
          unfold Seg.at at e7
          rw [if_neg (by rw [s3, s2]; exact h3)] at e7
          cases e7
        · exact ⟨by simpa using ha, by simpa using hm⟩
    have h0 : o < 4 * t.size := by
      unfold update at h
      obtain ⟨nd, e, -⟩ := Out.bind_eq_ok.1 h
      by_contra hc
      rw [Seg.at, if_neg hc] at e; cases e
    unfold update at h
    rw [at_ok h0, Out.ok_bind, if_neg (by rw [hi.2]; decide), Out.ok_bind, at_ok h0, Out.ok_bind,
      if_neg (by rw [hi.1]; decide)] at h
    cases h
    rw [upd_idle l r hi]

theorem query_free {sel : Node α → α} {comb : α → α → α} {lv rv : Int} (hv : lv ≤ rv) : ∀ (fuel : Nat) (l r : Int) (o : Nat)
    (t t' : Seg α) (x : α), 1 ≤ o → l ≤ r → lv ≤ r → l ≤ rv → query sel comb lv rv fuel l r o t = .ok (t', x) →
    (∀ y, ¬ Desc o y → t'.node y = t.node y) ∧
    ∀ p, l ≤ p → p ≤ r → Free t.node l r o p ∨ (lv = p ∧ rv = p) → Free t'.node l r o p := by
  intro fuel
  induction fuel with
  | zero => intro l r o t t' x _ _ _ _ h; cases h
  | succ fuel ih =>
    intro l r o t t' x ho hlr h1 h2 h
    rw [query] at h
    obtain ⟨t1, e, h⟩ := Out.bind_eq_ok.1 h
    have e := update_eq ho e
    have f1 : ∀ y, ¬ Desc o y → t1.node y = t.node y := fun y hy => by rw [e]; exact upd_other _ l r hy
    have i1 : Idle (t1.node o) := by rw [e]; show Idle (upd t.node o l r o); rw [upd_self]; exact settle_idle _ _
    have k1 : ∀ p, Free t.node l r o p → Free t1.node l r o p := fun p hp => by
      rw [e]; show Free (upd t.node o l r) l r o p; rw [upd_idle l r (free_idle hp)]; exact hp
    by_cases hc : lv ≤ l ∧ rv ≥ r
    · rw [if_pos hc] at h
      obtain ⟨nd, -, h⟩ := Out.bind_eq_ok.1 h
      cases h
      refine ⟨f1, fun p p1 p2 hp => hp.elim (k1 p) fun hp => ?_⟩
      exact free_of i1 (fun h => by omega) (fun h => by omega)
    · have hlt : l < r := by omega
      rw [if_neg hc] at h
      dsimp only at h
      have dl : ∀ y, ¬ Desc o y → ¬ Desc (2 * o) y := fun y hy h => hy (desc_of_left h)
      have dr : ∀ y, ¬ Desc o y → ¬ Desc (2 * o + 1) y := fun y hy h => hy (desc_of_right h)
      by_cases c1 : rv ≤ (l + r) / 2
      · rw [if_pos c1] at h
        obtain ⟨fr, k⟩ := ih _ _ _ _ _ _ (by omega) (by omega) (by omega) h2 h
        refine ⟨fun y hy => (fr y (dl y hy)).trans (f1 y hy), fun p p1 p2 hp => free_of ?_ (fun _ c => ?_) (fun _ c => ?_)⟩
        · rw [fr o (not_desc_left ho)]; exact i1
        · exact k p p1 c (hp.imp (fun h => free_left hlt c (k1 p h)) id)
        · rcases hp with hp | hp
          · exact free_congr _ _ _ (by omega) (fun y hy => fr y fun h' => desc_disjoint ho h' hy) p (free_right hlt c (k1 p hp))
          · omega
      · rw [if_neg c1] at h
        by_cases c2 : lv > (l + r) / 2
        · rw [if_pos c2] at h
          obtain ⟨fr, k⟩ := ih _ _ _ _ _ _ (by omega) (by omega) h1 (by omega) h
          refine ⟨fun y hy => (fr y (dr y hy)).trans (f1 y hy), fun p p1 p2 hp => free_of ?_ (fun _ c => ?_) (fun _ c => ?_)⟩
          · rw [fr o not_desc_right]; exact i1
          · rcases hp with hp | hp
            · exact free_congr _ _ _ (by omega) (fun y hy => fr y fun h' => desc_disjoint ho hy h') p (free_left hlt c (k1 p hp))
            · omega
          · exact k p (by omega) p2 (hp.imp (fun h => free_right hlt c (k1 p h)) id)
        · rw [if_neg c2] at h
          obtain ⟨⟨t2, y2⟩, q2, h⟩ := Out.bind_eq_ok.1 h
          obtain ⟨⟨t3, y3⟩, q3, h⟩ := Out.bind_eq_ok.1 h
          dsimp only at q3 h
          cases h
          obtain ⟨fr2, k2⟩ := ih _ _ _ _ _ _ (by omega) (by omega) (by omega) h2 q2
          obtain ⟨fr3, k3⟩ := ih _ _ _ _ _ _ (by omega) (by omega) h1 (by omega) q3
          refine ⟨fun y hy => (fr3 y (dr y hy)).trans ((fr2 y (dl y hy)).trans (f1 y hy)),
            fun p p1 p2 hp => free_of ?_ (fun _ c => ?_) (fun _ c => ?_)⟩
          · rw [fr3 o not_desc_right, fr2 o (not_desc_left ho)]; exact i1
          · refine free_congr _ _ _ (by omega) (fun y hy => fr3 y fun h' => desc_disjoint ho hy h') p ?_
            exact k2 p p1 c (hp.imp (fun h => free_left hlt c (k1 p h)) id)
          · rcases hp with hp | hp
            · refine k3 p (by omega) p2 (.inl ?_)
              exact free_congr _ _ _ (by omega) (fun y hy => fr2 y fun h' => desc_disjoint ho h' hy) p (free_right hlt c (k1 p hp))
            · omega

theorem change_free {tag : Node α → Node α} {lv rv : Int} : ∀ (fuel : Nat) (l r : Int) (o : Nat)
    (t t' : Seg α), 1 ≤ o → l ≤ r → lv ≤ r → l ≤ rv → change tag lv rv fuel l r o t = .ok t' →
    (∀ y, ¬ Desc o y → t'.node y = t.node y) ∧
    ∀ p, l ≤ p → p ≤ r → Free t.node l r o p → p < lv ∨ rv < p → Free t'.node l r o p := by
  intro fuel
  induction fuel with
  | zero => intro l r o t t' _ _ _ _ h; cases h
  | succ fuel ih =>
    intro l r o t t' ho hlr h1 h2 h
    rw [change] at h
    obtain ⟨t1, e, h⟩ := Out.bind_eq_ok.1 h
    have e := update_eq ho e
    have f1 : ∀ y, ¬ Desc o y → t1.node y = t.node y := fun y hy => by rw [e]; exact upd_other _ l r hy
    have i1 : Idle (t1.node o) := by rw [e]; show Idle (upd t.node o l r o); rw [upd_self]; exact settle_idle _ _
    have k1 : ∀ p, Free t.node l r o p → Free t1.node l r o p := fun p hp => by
      rw [e]; show Free (upd t.node o l r) l r o p; rw [upd_idle l r (free_idle hp)]; exact hp
    by_cases hc : lv ≤ l ∧ rv ≥ r
    · rw [if_pos hc] at h
      obtain ⟨nd, -, h⟩ := Out.bind_eq_ok.1 h
      unfold Seg.put at h
      split at h
      · cases h
        refine ⟨fun y hy => ?_, fun p p1 p2 hp hq => by omega⟩
        show (if y = o then tag nd else t1.node y) = _
        rw [if_neg (fun e' : y = o => hy (e' ▸ desc_self o))]
        exact f1 y hy
      · cases h
    · have hlt : l < r := by omega
      rw [if_neg hc] at h
      dsimp only at h
      have dl : ∀ y, ¬ Desc o y → ¬ Desc (2 * o) y := fun y hy h => hy (desc_of_left h)
      have dr : ∀ y, ¬ Desc o y → ¬ Desc (2 * o + 1) y := fun y hy h => hy (desc_of_right h)
      obtain ⟨t2, q2, h⟩ := Out.bind_eq_ok.1 h
      have s2 : (∀ y, ¬ Desc (2 * o) y → t2.node y = t1.node y) ∧
          ∀ p, l ≤ p → p ≤ (l + r) / 2 → Free t1.node l ((l + r) / 2) (2 * o) p → p < lv ∨ rv < p →
            Free t2.node l ((l + r) / 2) (2 * o) p := by
        by_cases c : lv ≤ (l + r) / 2
        · rw [if_pos c] at q2
          exact ih _ _ _ _ _ (by omega) (by omega) c h2 q2
        · rw [if_neg c] at q2
          cases q2
          exact ⟨fun _ _ => rfl, fun p _ _ h _ => h⟩
      have s3 : (∀ y, ¬ Desc (2 * o + 1) y → t'.node y = t2.node y) ∧
          ∀ p, (l + r) / 2 + 1 ≤ p → p ≤ r → Free t2.node ((l + r) / 2 + 1) r (2 * o + 1) p → p < lv ∨ rv < p →
            Free t'.node ((l + r) / 2 + 1) r (2 * o + 1) p := by
        by_cases c : rv > (l + r) / 2
        · rw [if_pos c] at h
          exact ih _ _ _ _ _ (by omega) (by omega) h1 (by omega) h
        · rw [if_neg c] at h
          cases h
          exact ⟨fun _ _ => rfl, fun p _ _ h _ => h⟩
      refine ⟨fun y hy => (s3.1 y (dr y hy)).trans ((s2.1 y (dl y hy)).trans (f1 y hy)),
        fun p p1 p2 hp hq => free_of ?_ (fun _ c => ?_) (fun _ c => ?_)⟩
      · rw [s3.1 o not_desc_right, s2.1 o (not_desc_left ho)]; exact i1
      · refine free_congr _ _ _ (by omega) (fun y hy => s3.1 y fun h' => desc_disjoint ho hy h') p ?_
        exact s2.2 p p1 c (free_left hlt c (k1 p hp)) hq
      · refine s3.2 p (by omega) p2 ?_ hq
        exact free_congr _ _ _ (by omega) (fun y hy => s2.1 y fun h' => desc_disjoint ho h' hy) p (free_right hlt c (k1 p hp))

/-! ### `init` on a tree in use -/

/-- flags only disappear -/
def Fewer (t t' : Nat → Node α) : Prop := ∀ x, ((t' x).hasAdd = true → (t x).hasAdd = true) ∧
  ((t' x).hasMul = true → (t x).hasMul = true ∧ (t' x).mul = (t x).mul)

theorem init_free (v : List α) (f : Int → α) (hf : ∀ p : Int, 0 ≤ p → p < v.length → v[p.toNat]? = some (f p)) (N : Nat) :
    ∀ (l r : Int) (o : Nat), l ≤ r → ∀ (fuel : Nat) (t : Nat → Node α), (r - l).toNat < fuel → 1 ≤ o →
    Room (4 * N) l r o → 0 ≤ l → r < v.length → (∀ p, l ≤ p → p ≤ r → Free t l r o p) →
    ∃ t', init v fuel l r o ⟨N, t⟩ = .ok ⟨N, t'⟩ ∧ (∀ x, ¬ Desc o x → t' x = t x) ∧
      (∀ p, l ≤ p → p ≤ r → Free t' l r o p) ∧ Leafy t' l r o ∧ Fewer t t' ∧
      (∀ nn a b, Good nn a b t' l r o) ∧ ∀ p, l ≤ p → p ≤ r → eff t' l r o p = f p := by
  refine seg_ind ?_ ?_
  · intro l o fuel t hfu ho hR h0 hr hC
    obtain ⟨fuel, rfl⟩ : ∃ k, fuel = k + 1 := ⟨fuel - 1, by omega⟩
    rw [init, if_pos rfl, elemAt_ok h0 (hf l h0 hr), Out.ok_bind, at_ok (t := ⟨N, t⟩) (room_lt hR), Out.ok_bind,
      put_ok _ (room_lt hR)]
    refine ⟨_, rfl, fun x hx => if_neg (fun e : x = o => hx (e ▸ desc_self o)), fun p _ _ => ?_, ?_, fun x => ?_, fun nn a b => ?_,
      fun p h1 h2 => ?_⟩
    · exact free_of (by simp [Idle]) (fun h => by omega) (fun h => by omega)
    · rw [Leafy, if_neg (by omega)]; simp
    · by_cases e : x = o
      · simp [e]
      · simp [e]
    · rw [Good, if_neg (by omega)]
      refine ⟨fun _ _ => ⟨by simp [below], fun _ => ?_, fun _ => ?_⟩, trivial⟩
      · exact ⟨⟨l, le_refl l, le_refl l, by simp [below]⟩, fun p _ _ => by simp [below]⟩
      · exact ⟨⟨l, le_refl l, le_refl l, by simp [below]⟩, fun p _ _ => by simp [below]⟩
    · rw [eff_eq, below, if_neg (show ¬ l < l by omega)]
      have : p = l := by omega
      subst this
      simp [app]
  · intro l r o hlr hL hRt fuel t hfu ho hR h0 hr hC
    obtain ⟨fuel, rfl⟩ : ∃ k, fuel = k + 1 := ⟨fuel - 1, by omega⟩
    have hRo := room_lt hR
    rw [Room, if_pos hlr] at hR
    rw [init, if_neg (by omega)]
    dsimp only
    obtain ⟨t1, e1, f1, c1, lf1, w1, g1, v1⟩ := hL fuel t (by omega) (by omega) hR.2.1 h0 (by omega)
      (fun p p1 p2 => free_left hlr p2 (hC p p1 (by omega)))
    rw [e1, Out.ok_bind]
    have fr1 : ∀ x, Desc (2 * o + 1) x → t1 x = t x := fun x hx => f1 x fun hx' => desc_disjoint ho hx' hx
    obtain ⟨t2, e2, f2, c2, lf2, w2, g2, v2⟩ := hRt fuel t1 (by omega) (by omega) hR.2.2 (by omega) hr
      (fun p p1 p2 => free_congr _ _ _ (by omega) fr1 p (free_right hlr (by omega) (hC p (by omega) p2)))
    rw [e2, Out.ok_bind, at_ok (t := ⟨N, t2⟩) (room_lt hR.2.1), Out.ok_bind,
      at_ok (t := ⟨N, t2⟩) (room_lt hR.2.2), Out.ok_bind, at_ok (t := ⟨N, t2⟩) hRo, Out.ok_bind, put_ok _ hRo]
    have frL : ∀ x, Desc (2 * o) x → t2 x = t1 x := fun x hx => f2 x fun hx' => desc_disjoint ho hx hx'
    have h0' : t2 o = t o := (f2 o not_desc_right).trans (f1 o (not_desc_left ho))
    set nd : Node α := { t2 o with
      mn := min (t2 (2 * o)).mn (t2 (2 * o + 1)).mn, mx := max (t2 (2 * o)).mx (t2 (2 * o + 1)).mx,
      sm := (t2 (2 * o)).sm + (t2 (2 * o + 1)).sm } with hnd
    set t3 : Nat → Node α := fun x => if x = o then nd else t2 x with ht3
    have t3o : t3 o = nd := by simp [ht3]
    have n3L : ∀ x, Desc (2 * o) x → t3 x = t2 x := fun x hx => by
      simp only [ht3]; rw [if_neg (desc_strict ho (.inl hx)).2]
    have n3R : ∀ x, Desc (2 * o + 1) x → t3 x = t2 x := fun x hx => by
      simp only [ht3]; rw [if_neg (desc_strict ho (.inr hx)).2]
    have n3L' : ∀ x, Desc (2 * o) x → t3 x = t1 x := fun x hx => (n3L x hx).trans (frL x hx)
    have hfl : Idle (t o) := free_idle (hC l (le_refl l) (by omega))
    have ndf : Idle nd := by rw [hnd, h0']; exact hfl
    have iL : Idle (t1 (2 * o)) := free_idle (c1 l (le_refl l) (by omega))
    have iR : Idle (t2 (2 * o + 1)) := free_idle (c2 r (by omega) (le_refl r))
    have bl : ∀ p, l ≤ p → p ≤ r → below t3 l r o p = f p := by
      intro p p1 p2
      unfold below
      rw [if_pos hlr]
      by_cases c : p ≤ (l + r) / 2
      · rw [if_pos c, eff_congr _ _ _ (by omega) n3L', v1 p p1 c]
      · rw [if_neg c, eff_congr _ _ _ (by omega) n3R, v2 p (by omega) p2]
    have oL := g1 True l ((l + r) / 2)
    have oR := g2 True ((l + r) / 2 + 1) r
    rw [Good] at oL oR
    have oL := oL.1 (le_refl _) (le_refl _)
    have oR := oR.1 (le_refl _) (le_refl _)
    have bL : ∀ p, l ≤ p → p ≤ (l + r) / 2 → below t1 l ((l + r) / 2) (2 * o) p = f p := by
      intro p p1 p2
      rw [← v1 p p1 p2, eff_eq]; simp [app, iL.1, iL.2]
    have bR : ∀ p, (l + r) / 2 + 1 ≤ p → p ≤ r → below t2 ((l + r) / 2 + 1) r (2 * o + 1) p = f p := by
      intro p p1 p2
      rw [← v2 p p1 p2, eff_eq]; simp [app, iR.1, iR.2]
    have c2o : t2 (2 * o) = t1 (2 * o) := frL _ (desc_self _)
    have sumf : nd.sm = ∑ p ∈ Finset.Icc l r, f p := by
      have e1 := agg_sum.congr _ _ _ _ _ bL (agg_sum.node t1 l _ _ (by omega) lf1 ⟨oL.sum, False.elim, False.elim⟩)
      have e2 := agg_sum.congr _ _ _ _ _ bR (agg_sum.node t2 _ r _ (by omega) lf2 ⟨oR.sum, False.elim, False.elim⟩)
      have := agg_sum.join l ((l + r) / 2) r f _ _ (by omega) (by omega) e1 e2
      rw [hnd]; dsimp only; rw [c2o]; exact this
    have minf : IsMinOn l r f nd.mn := by
      have e1 := agg_min.congr _ _ _ _ _ bL (oL.min trivial)
      have e2 := agg_min.congr _ _ _ _ _ bR (oR.min trivial)
      have := agg_min.join l ((l + r) / 2) r f _ _ (by omega) (by omega) e1 e2
      rw [hnd]; dsimp only; rw [c2o]; exact this
    have maxf : IsMaxOn l r f nd.mx := by
      have e1 := agg_max.congr _ _ _ _ _ bL (oL.max trivial)
      have e2 := agg_max.congr _ _ _ _ _ bR (oR.max trivial)
      have := agg_max.join l ((l + r) / 2) r f _ _ (by omega) (by omega) e1 e2
      rw [hnd]; dsimp only; rw [c2o]; exact this
    refine ⟨t3, rfl, fun x hx => ?_, fun p p1 p2 => free_of ?_ (fun _ c => ?_) (fun _ c => ?_), ?_, fun x => ?_, fun nn a b => ?_,
      fun p p1 p2 => ?_⟩
    · simp only [ht3]
      rw [if_neg (fun e : x = o => hx (e ▸ desc_self o)), f2 x fun q => hx (desc_of_right q),
        f1 x fun q => hx (desc_of_left q)]
    · rw [t3o]; exact ndf
    · exact free_congr _ _ _ (by omega) n3L' p (c1 p p1 c)
    · exact free_congr _ _ _ (by omega) n3R p (c2 p (by omega) p2)
    · rw [Leafy, if_pos hlr]
      exact ⟨leafy_congr _ _ _ (by omega) n3L' lf1, leafy_congr _ _ _ (by omega) n3R lf2⟩
    · by_cases e : x = o
      · rw [e, t3o]; rw [ndf.1, ndf.2]; simp
      · simp only [ht3, e, if_false]
        refine ⟨fun h => (w1 x).1 ((w2 x).1 h), fun h => ?_⟩
        obtain ⟨a1, a2⟩ := (w2 x).2 h
        obtain ⟨b1, b2⟩ := (w1 x).2 a1
        exact ⟨b1, a2.trans b2⟩
    · rw [Good, if_pos hlr]
      refine ⟨fun _ _ => ⟨?_, fun _ => ?_, fun _ => ?_⟩, good_congr _ _ _ (by omega) n3L' (g1 nn a b),
        good_congr _ _ _ (by omega) n3R (g2 nn a b)⟩
      · rw [t3o, sumf]
        exact Finset.sum_congr rfl fun p hp => by rw [Finset.mem_Icc] at hp; exact (bl p hp.1 hp.2).symm
      · rw [t3o]; exact agg_min.congr _ _ _ _ _ (fun p p1 p2 => (bl p p1 p2).symm) minf
      · rw [t3o]; exact agg_max.congr _ _ _ _ _ (fun p p1 p2 => (bl p p1 p2).symm) maxf
    · rw [eff_eq, t3o, bl p p1 p2]; simp [app, ndf.1, ndf.2]

/-! ### nodes whose ancestors have nothing pending -/

/-- a node of the tree, with nothing pending above it -/
inductive Clear (t : Nat → Node α) (n : Nat) : Int → Int → Nat → Prop
  | root : Clear t n 0 ((n : Int) - 1) 1
  | left (l r : Int) (o : Nat) (h : Clear t n l r o) (hlr : l < r) (hi : Idle (t o)) : Clear t n l ((l + r) / 2) (2 * o)
  | right (l r : Int) (o : Nat) (h : Clear t n l r o) (hlr : l < r) (hi : Idle (t o)) : Clear t n ((l + r) / 2 + 1) r (2 * o + 1)

theorem Clear.range {t : Nat → Node α} {n : Nat} (hn : 1 ≤ n) {l r : Int} {o : Nat} (h : Clear t n l r o) :
    1 ≤ o ∧ 0 ≤ l ∧ l ≤ r ∧ r < n := by
  induction h with
  | root => omega
  | left l r o h hlr hi ih => omega
  | right l r o h hlr hi ih => omega

theorem NodeOf.range {n : Nat} (hn : 1 ≤ n) {l r : Int} {o : Nat} (h : NodeOf n l r o) : 1 ≤ o ∧ 0 ≤ l ∧ l ≤ r ∧ r < n := by
  induction h with
  | root => omega
  | left l r o h hlr ih => omega
  | right l r o h hlr ih => omega

theorem clear_of {t : Nat → Node α} {n : Nat} {p : Int} (hp : Free t 0 ((n : Int) - 1) 1 p) {l r : Int} {o : Nat}
    (h : NodeOf n l r o) : l ≤ p → p ≤ r → Clear t n l r o ∧ Free t l r o p := by
  induction h with
  | root => exact fun _ _ => ⟨.root, hp⟩
  | left l r o h hlr ih =>
    intro h1 h2
    obtain ⟨c, f⟩ := ih h1 (by omega)
    exact ⟨.left l r o c hlr (free_idle f), free_left hlr h2 f⟩
  | right l r o h hlr ih =>
    intro h1 h2
    obtain ⟨c, f⟩ := ih (by omega) h2
    exact ⟨.right l r o c hlr (free_idle f), free_right hlr (by omega) f⟩

theorem eff_idle {t : Nat → Node α} {l r : Int} {o : Nat} (h : Idle (t o)) (p : Int) : eff t l r o p = below t l r o p := by
  rw [eff_eq]; simp [app, h.1, h.2]

theorem Clear.eff_eq {t : Nat → Node α} {n : Nat} {l r : Int} {o : Nat} (h : Clear t n l r o) :
    ∀ p, l ≤ p → p ≤ r → eff t l r o p = eff t 0 ((n : Int) - 1) 1 p := by
  induction h with
  | root => exact fun _ _ _ => rfl
  | left l r o h hlr hi ih =>
    intro p p1 p2
    rw [← ih p p1 (by omega), eff_idle hi, SegmentTree.below, if_pos hlr, if_pos p2]
  | right l r o h hlr hi ih =>
    intro p p1 p2
    rw [← ih p (by omega) p2, eff_idle hi, SegmentTree.below, if_pos hlr, if_neg (by omega)]

theorem Clear.leafy {t : Nat → Node α} {n : Nat} {l r : Int} {o : Nat} (h : Clear t n l r o)
    (h0 : Leafy t 0 ((n : Int) - 1) 1) : Leafy t l r o := by
  induction h with
  | root => exact h0
  | left l r o h hlr hi ih => rw [Leafy, if_pos hlr] at ih; exact ih.1
  | right l r o h hlr hi ih => rw [Leafy, if_pos hlr] at ih; exact ih.2

theorem Clear.good {t : Nat → Node α} {n : Nat} {l r : Int} {o : Nat} (h : Clear t n l r o) {nn : Prop} {a b : Int}
    (h0 : Good nn a b t 0 ((n : Int) - 1) 1) : Good nn a b t l r o := by
  induction h with
  | root => exact h0
  | left l r o h hlr hi ih => rw [Good, if_pos hlr] at ih; exact ih.2.1
  | right l r o h hlr hi ih => rw [Good, if_pos hlr] at ih; exact ih.2.2

theorem Clear.fits {t : Nat → Node α} {n N : Nat} {l r : Int} {o : Nat} (h : Clear t n l r o)
    (h0 : Fits N 0 ((n : Int) - 1) 1) : Fits N l r o := by
  induction h with
  | root => exact h0
  | left l r o h hlr hi ih => rw [Fits, if_pos hlr] at ih; exact ih.2.1
  | right l r o h hlr hi ih => rw [Fits, if_pos hlr] at ih; exact ih.2.2

theorem Clear.keeps {t t' : Nat → Node α} {n : Nat} (hn : 1 ≤ n) {l r : Int} {o : Nat} (h : Clear t n l r o)
    (K : Keeps t t' l r o) : Keeps t t' 0 ((n : Int) - 1) 1 := by
  induction h with
  | root => exact K
  | left l r o h hlr hi ih => exact ih (Keeps.left (h.range hn).1 hlr K)
  | right l r o h hlr hi ih => exact ih (Keeps.right (h.range hn).1 hlr K)

theorem Clear.free {t t' : Nat → Node α} {n : Nat} (hn : 1 ≤ n) {K Q : Int → Prop} {l r : Int} {o : Nat} (h : Clear t n l r o) :
    (∀ y, ¬ Desc o y → t' y = t y) → (∀ p, Q p → l ≤ p ∧ p ≤ r) →
    (∀ p, l ≤ p → p ≤ r → (Free t l r o p ∧ K p) ∨ Q p → Free t' l r o p) →
    ∀ p : Int, 0 ≤ p → p < n → (Free t 0 ((n : Int) - 1) 1 p ∧ K p) ∨ Q p → Free t' 0 ((n : Int) - 1) 1 p := by
  induction h with
  | root => exact fun _ _ h p h1 h2 h3 => h p h1 (by omega) h3
  | left l r o h hlr hi ih =>
    intro fr hQ hs
    obtain ⟨ho, -⟩ := h.range hn
    refine ih (fun y hy => fr y fun h => hy (desc_of_left h)) (fun p hp => by have := hQ p hp; omega) fun p p1 p2 hp => ?_
    refine free_of (by rw [fr o (not_desc_left ho)]; exact hi) (fun _ c => ?_) (fun _ c => ?_)
    · exact hs p p1 c (hp.imp (fun h => ⟨free_left hlr c h.1, h.2⟩) id)
    · rcases hp with hp | hp
      · exact free_congr _ _ _ (by omega) (fun y hy => fr y fun h' => desc_disjoint ho h' hy) p (free_right hlr c hp.1)
      · exact absurd (hQ p hp).2 c
  | right l r o h hlr hi ih =>
    intro fr hQ hs
    obtain ⟨ho, -⟩ := h.range hn
    refine ih (fun y hy => fr y fun h => hy (desc_of_right h)) (fun p hp => by have := hQ p hp; omega) fun p p1 p2 hp => ?_
    refine free_of (by rw [fr o not_desc_right]; exact hi) (fun _ c => ?_) (fun _ c => ?_)
    · rcases hp with hp | hp
      · exact free_congr _ _ _ (by omega) (fun y hy => fr y fun h' => desc_disjoint ho hy h') p (free_left hlr c hp.1)
      · have := (hQ p hp).1; omega
    · exact hs p (by omega) p2 (hp.imp (fun h => ⟨free_right hlr c h.1, h.2⟩) id)

/-- what an update of `lv..rv` does below a node -/
structure Shift (C : Prop → Int → Int → Prop) (lv rv : Int) (g : α → α) (t t' : Nat → Node α) (l r : Int) (o : Nat) : Prop where
  frame : ∀ x, ¬ Desc o x → t' x = t x
  eff : ∀ p, l ≤ p → p ≤ r → eff t' l r o p = if lv ≤ p ∧ p ≤ rv then g (eff t l r o p) else eff t l r o p
  leafy : Leafy t l r o → Leafy t' l r o
  good : ∀ nn a b, C nn a b → Good nn a b t l r o → Good nn a b t' l r o

theorem Shift.left {C : Prop → Int → Int → Prop} {lv rv : Int} {g : α → α} {t t' : Nat → Node α} {l r : Int} {o : Nat}
    (hC : ∀ nn a b, C nn a b → Apart a b lv rv) (h1 : l ≤ lv) (h2 : lv ≤ rv) (h3 : rv ≤ (l + r) / 2) (ho : 1 ≤ o) (hlr : l < r)
    (hi : Idle (t o)) (h : Shift C lv rv g t t' l ((l + r) / 2) (2 * o)) : Shift C lv rv g t t' l r o := by
  have h0 : t' o = t o := h.frame o (not_desc_left ho)
  have hR : ∀ x, Desc (2 * o + 1) x → t' x = t x := fun x hx => h.frame x fun hx' => desc_disjoint ho hx' hx
  refine ⟨fun x hx => h.frame x fun q => hx (desc_of_left q), fun p p1 p2 => ?_, fun hl => ?_, fun nn a b hc hg => ?_⟩
  · rw [eff_idle (by rw [h0]; exact hi), eff_idle hi]
    unfold below
    rw [if_pos hlr, if_pos hlr]
    by_cases c : p ≤ (l + r) / 2
    · rw [if_pos c, if_pos c]; exact h.eff p p1 c
    · rw [if_neg c, if_neg c, if_neg (by omega)]
      exact eff_congr _ _ _ (by omega) hR p
  · rw [Leafy, if_pos hlr] at hl ⊢
    exact ⟨h.leafy hl.1, leafy_congr _ _ _ (by omega) hR hl.2⟩
  · rw [Good, if_pos hlr] at hg ⊢
    refine ⟨fun a1 a2 => ?_, h.good nn a b hc hg.2.1, good_congr _ _ _ (by omega) hR hg.2.2⟩
    rcases hC nn a b hc with c | c | c <;> omega

theorem Shift.right {C : Prop → Int → Int → Prop} {lv rv : Int} {g : α → α} {t t' : Nat → Node α} {l r : Int} {o : Nat}
    (hC : ∀ nn a b, C nn a b → Apart a b lv rv) (h1 : (l + r) / 2 + 1 ≤ lv) (h2 : lv ≤ rv) (h3 : rv ≤ r) (ho : 1 ≤ o) (hlr : l < r)
    (hi : Idle (t o)) (h : Shift C lv rv g t t' ((l + r) / 2 + 1) r (2 * o + 1)) : Shift C lv rv g t t' l r o := by
  have h0 : t' o = t o := h.frame o not_desc_right
  have hL : ∀ x, Desc (2 * o) x → t' x = t x := fun x hx => h.frame x fun hx' => desc_disjoint ho hx hx'
  refine ⟨fun x hx => h.frame x fun q => hx (desc_of_right q), fun p p1 p2 => ?_, fun hl => ?_, fun nn a b hc hg => ?_⟩
  · rw [eff_idle (by rw [h0]; exact hi), eff_idle hi]
    unfold below
    rw [if_pos hlr, if_pos hlr]
    by_cases c : p ≤ (l + r) / 2
    · rw [if_pos c, if_pos c, if_neg (by omega)]
      exact eff_congr _ _ _ (by omega) hL p
    · rw [if_neg c, if_neg c]; exact h.eff p (by omega) p2
  · rw [Leafy, if_pos hlr] at hl ⊢
    exact ⟨leafy_congr _ _ _ (by omega) hL hl.1, h.leafy hl.2⟩
  · rw [Good, if_pos hlr] at hg ⊢
    refine ⟨fun a1 a2 => ?_, good_congr _ _ _ (by omega) hL hg.2.1, h.good nn a b hc hg.2.2⟩
    rcases hC nn a b hc with c | c | c <;> omega

theorem Clear.shift {t t' : Nat → Node α} {n : Nat} (hn : 1 ≤ n) {C : Prop → Int → Int → Prop} {lv rv : Int} {g : α → α}
    (hC : ∀ nn a b, C nn a b → Apart a b lv rv) (h2 : lv ≤ rv) {l r : Int} {o : Nat} (h : Clear t n l r o) :
    l ≤ lv → rv ≤ r → Shift C lv rv g t t' l r o → Shift C lv rv g t t' 0 ((n : Int) - 1) 1 := by
  induction h with
  | root => exact fun _ _ => id
  | left l r o h hlr hi ih =>
    intro h1 h3 S
    exact ih h1 (by omega) (S.left hC h1 h2 h3 (h.range hn).1 hlr hi)
  | right l r o h hlr hi ih =>
    intro h1 h3 S
    exact ih (by omega) h3 (S.right hC h1 h2 h3 (h.range hn).1 hlr hi)

/-! ### programs -/

/-- a query at a node -/
theorem node_query {nn : Prop} {sel : Node α → α} {comb : α → α → α} {R : Int → Int → (Int → α) → α → Prop}
    (hR : Agg nn sel comb R) {v : List α} {fuel : Nat} (hf : v.length ≤ fuel) (hF : Fits (4 * v.length) 0 ((v.length : Int) - 1) 1)
    {t : Nat → Node α} (hst : St v t) {l r : Int} {o : Nat} (hc : Clear t v.length l r o) {lv rv : Int}
    (hr : InRange v.length (max lv l) (min rv r)) :
    ∃ t' x, query sel comb lv rv fuel l r o ⟨v.length, t⟩ = .ok (⟨v.length, t'⟩, x) ∧ St v t' ∧
      Keeps t t' 0 ((v.length : Int) - 1) 1 ∧
      (∀ p : Int, 0 ≤ p → p < v.length → Free t 0 ((v.length : Int) - 1) 1 p ∨ (max lv l = p ∧ min rv r = p) →
        Free t' 0 ((v.length : Int) - 1) 1 p) ∧
      (Pos nn t → Good nn (max lv l) (min rv r) t 0 ((v.length : Int) - 1) 1 → R (max lv l) (min rv r) (val v) x) := by
  obtain ⟨r1, r2, r3⟩ := hr
  have hn : 1 ≤ v.length := by omega
  obtain ⟨ho, l0, hlr, r0⟩ := hc.range hn
  rw [query_cut (L := l) (R := r) (by omega) fuel l r o _ (le_refl l) hlr (le_refl r) (by omega) (by omega)]
  generalize ea : max lv l = a at *
  generalize eb : min rv r = b at *
  have a1 : l ≤ a := by omega
  have b1 : b ≤ r := by omega
  obtain ⟨t', x, e, K, S, q⟩ := query_ok hR r2 v.length l r o hlr fuel t (by omega) ho (by omega) (by omega)
    (.inl (hc.fits hF)) (hc.leafy hst.leafy)
  obtain ⟨fr, fz⟩ := query_free r2 fuel l r o _ _ x ho hlr (by omega) (by omega) e
  have K0 := hc.keeps hn K
  refine ⟨t', x, e, ⟨fun p h1 h2 => by rw [K0.eff]; exact hst.eff p h1 h2, K0.leafy hst.leafy⟩, K0, fun p p1 p2 hp => ?_,
    fun hp hg => ?_⟩
  · refine hc.free (K := fun _ => True) (Q := fun p => a = p ∧ b = p) hn fr (fun p hp => by omega)
      (fun p q1 q2 hq => fz p q1 q2 (hq.imp (fun h => h.1) id)) p p1 p2 (hp.imp (fun h => ⟨h, trivial⟩) id)
  · have := q hp (hc.good hg)
    rw [max_eq_right a1, min_eq_right b1] at this
    refine hR.congr _ _ _ _ _ (fun p p1 p2 => ?_) this
    rw [hc.eff_eq p (by omega) (by omega)]
    exact hst.eff p (by omega) (by omega)

/-- an update at a node -/
theorem node_change {tag : Node α → Node α} {g : α → α} (hT : Tag False tag g) {v : List α} {fuel : Nat} (hf : v.length ≤ fuel)
    (hF : Fits (4 * v.length) 0 ((v.length : Int) - 1) 1) {t : Nat → Node α} (hst : St v t) {l r : Int} {o : Nat}
    (hc : Clear t v.length l r o) {lv rv : Int} (hr : InRange v.length (max lv l) (min rv r)) :
    ∃ t', change tag lv rv fuel l r o ⟨v.length, t⟩ = .ok ⟨v.length, t'⟩ ∧
      St (v.mapIdx fun i y => if max lv l ≤ i ∧ i ≤ min rv r then g y else y) t' ∧
      (∀ nn, Tag nn tag g → Pos nn t → Pos nn t') ∧
      (∀ nn a b, Tag nn tag g → Apart a b (max lv l) (min rv r) → Pos nn t → Good nn a b t 0 ((v.length : Int) - 1) 1 →
        Good nn a b t' 0 ((v.length : Int) - 1) 1) ∧
      ∀ p : Int, 0 ≤ p → p < v.length → Free t 0 ((v.length : Int) - 1) 1 p → p < max lv l ∨ min rv r < p →
        Free t' 0 ((v.length : Int) - 1) 1 p := by
  obtain ⟨r1, r2, r3⟩ := hr
  have hn : 1 ≤ v.length := by omega
  obtain ⟨ho, l0, hlr, r0⟩ := hc.range hn
  rw [change_cut (L := l) (R := r) fuel l r o _ (le_refl l) hlr (le_refl r) (by omega) (by omega)]
  generalize ea : max lv l = a at *
  generalize eb : min rv r = b at *
  have a1 : l ≤ a := by omega
  have b1 : b ≤ r := by omega
  obtain ⟨t', e, fr, ef, lf, ps, gd⟩ := change_ok hT (lv := a) (rv := b) v.length l r o hlr fuel t (by omega) ho (by omega)
    (by omega) (hc.fits hF)
  obtain ⟨-, fz⟩ := change_free fuel l r o _ _ ho hlr (by omega) (by omega) e
  have S0 := hc.shift hn (C := fun nn a' b' => Tag nn tag g ∧ Apart a' b' a b ∧ Pos nn t) (g := g) (fun nn a b h => h.2.1) r2 a1 b1
    ⟨fr, ef, lf, fun nn a b h => gd nn a b h.1 h.2.1 h.2.2⟩
  refine ⟨t', e, ⟨fun p h1 h2 => ?_, ?_⟩, ps, fun nn a b h1 h2 h3 => S0.good nn a b ⟨h1, h2, h3⟩, fun p p1 p2 hp hq => ?_⟩
  · rw [List.length_mapIdx] at h2 ⊢
    rw [S0.eff p h1 (by omega), hst.eff p h1 h2, val_mapIdx v _ h1 h2, Int.toNat_of_nonneg h1]
  · rw [List.length_mapIdx]; exact S0.leafy hst.leafy
  · exact hc.free (K := fun p => p < a ∨ b < p) (Q := fun _ => False) hn fr (fun _ h => h.elim)
      (fun p q1 q2 hq => fz p q1 q2 (hq.elim (fun h => h.1) False.elim) (hq.elim (fun h => h.2) False.elim)) p p1 p2 (.inl ⟨hp, hq⟩)

/-- what holds between calls: the tree denotes `v`, and nothing is pending above settled positions -/
structure Denotes (v : List α) (S : Int → Prop) (t : Nat → Node α) : Prop where
  st : St v t
  free : ∀ p : Int, 0 ≤ p → p < v.length → S p → Free t 0 ((v.length : Int) - 1) 1 p

theorem node_exec {v : List α} {fuel : Nat} (hf : v.length ≤ fuel) (hF : Fits (4 * v.length) 0 ((v.length : Int) - 1) 1)
    {S : Int → Prop} {t : Nat → Node α} (hi : Denotes v S t) {l r : Int} {o : Nat} (hc : Clear t v.length l r o) (op : Op α)
    (hr : Op.InRange v.length (clip l r op)) :
    ∃ t', execAt fuel ⟨v.length, t⟩ l r o op = .ok ⟨v.length, t'⟩ ∧
      Denotes (apply v (clip l r op)) (settles S (.node l r o op)) t' ∧
      (∀ nn, (nn → Op.NonNeg (clip l r op)) → Pos nn t → Pos nn t') ∧
      (∀ nn a b, (nn → Op.NonNeg (clip l r op)) → Op.Respects a b (clip l r op) → Pos nn t →
        Good nn a b t 0 ((v.length : Int) - 1) 1 → Good nn a b t' 0 ((v.length : Int) - 1) 1) := by
  cases op with
  | add lv rv x =>
    obtain ⟨t', e, st, ps, gd, fz⟩ := node_change (tag_add False x) hf hF hi.st hc hr
    refine ⟨t', e, ⟨st, fun p p1 p2 hp => ?_⟩, fun nn _ => ps nn (tag_add nn x), fun nn a b _ hA => gd nn a b (tag_add nn x) hA⟩
    rw [length_apply] at p2 ⊢
    exact fz p p1 p2 (hi.free p p1 p2 hp.1) hp.2
  | mul lv rv x =>
    obtain ⟨t', e, st, ps, gd, fz⟩ := node_change (tag_mul False x False.elim) hf hF hi.st hc hr
    refine ⟨t', e, ⟨st, fun p p1 p2 hp => ?_⟩, fun nn h => ps nn (tag_mul nn x h), fun nn a b h hA => gd nn a b (tag_mul nn x h) hA⟩
    rw [length_apply] at p2 ⊢
    exact fz p p1 p2 (hi.free p p1 p2 hp.1) hp.2
  | max lv rv =>
    obtain ⟨t', x, e, st, K, fz, -⟩ := node_query (agg_one (sel := Node.mx) max fun _ _ h => h) hf hF hi.st hc hr
    refine ⟨t', by rw [execAt, e]; rfl, ⟨st, fun p p1 p2 hp => ?_⟩, fun nn _ => K.pos nn, fun nn a b _ _ => K.good nn a b⟩
    exact fz p p1 p2 (hp.imp (hi.free p p1 p2) id)
  | min lv rv =>
    obtain ⟨t', x, e, st, K, fz, -⟩ := node_query (agg_one (sel := Node.mn) min fun _ h _ => h) hf hF hi.st hc hr
    refine ⟨t', by rw [execAt, e]; rfl, ⟨st, fun p p1 p2 hp => ?_⟩, fun nn _ => K.pos nn, fun nn a b _ _ => K.good nn a b⟩
    exact fz p p1 p2 (hp.imp (hi.free p p1 p2) id)
  | sum lv rv =>
    obtain ⟨t', x, e, st, K, fz, -⟩ := node_query (agg_one (sel := Node.sm) (· + ·) fun _ _ _ => rfl) hf hF hi.st hc hr
    refine ⟨t', by rw [execAt, e]; rfl, ⟨st, fun p p1 p2 hp => ?_⟩, fun nn _ => K.pos nn, fun nn a b _ _ => K.good nn a b⟩
    exact fz p p1 p2 (hp.imp (hi.free p p1 p2) id)

omit [CommRing α] [LinearOrder α] [IsStrictOrderedRing α] in
theorem clip_range {n : Nat} {op : Op α} (h : Op.InRange n op) : clip 0 ((n : Int) - 1) op = op := by
  cases op with
  | add lv rv x => obtain ⟨h1, h2, h3⟩ := h; rw [clip, max_eq_left h1, min_eq_left (by omega)]
  | mul lv rv x => obtain ⟨h1, h2, h3⟩ := h; rw [clip, max_eq_left h1, min_eq_left (by omega)]
  | max lv rv => obtain ⟨h1, h2, h3⟩ := h; rw [clip, max_eq_left h1, min_eq_left (by omega)]
  | min lv rv => obtain ⟨h1, h2, h3⟩ := h; rw [clip, max_eq_left h1, min_eq_left (by omega)]
  | sum lv rv => obtain ⟨h1, h2, h3⟩ := h; rw [clip, max_eq_left h1, min_eq_left (by omega)]

theorem exec_root (fuel : Nat) (t : Seg α) (op : Op α) : SegmentTree.exec fuel t op = execAt fuel t 0 ((t.size : Int) - 1) 1 op := by
  cases op <;> rfl

theorem fewer_pos {t t' : Nat → Node α} (h : Fewer t t') (nn : Prop) (hp : Pos nn t) : Pos nn t' := fun q x hx => by
  obtain ⟨h1, h2⟩ := (h x).2 hx
  rw [h2]; exact hp q x h1

/-- `init` on the whole tree, from a settled state -/
theorem init_all {v w : List α} {fuel : Nat} (hv : 1 ≤ v.length) (hf : v.length ≤ fuel) (hw : w.length = v.length) {t : Nat → Node α}
    (hz : ∀ p : Int, 0 ≤ p → p < v.length → Free t 0 ((v.length : Int) - 1) 1 p) :
    ∃ t', init w fuel 0 ((v.length : Int) - 1) 1 ⟨v.length, t⟩ = .ok ⟨v.length, t'⟩ ∧ St w t' ∧
      (∀ p : Int, 0 ≤ p → p < v.length → Free t' 0 ((v.length : Int) - 1) 1 p) ∧ (∀ nn, Pos nn t → Pos nn t') ∧
      ∀ nn a b, Good nn a b t' 0 ((v.length : Int) - 1) 1 := by
  obtain ⟨t', e, -, fz, lf, fw, g, ef⟩ := init_free w (val w) (fun p => val_some w) v.length 0 ((v.length : Int) - 1) 1 (by omega) fuel t
    (by omega) (le_refl 1) (room_root hv) (le_refl 0) (by omega) (fun p p1 p2 => hz p p1 (by omega))
  refine ⟨t', e, ⟨fun p p1 p2 => ?_, by rw [hw]; exact lf⟩, fun p p1 p2 => fz p p1 (by omega), fewer_pos fw, g⟩
  rw [hw] at p2 ⊢
  exact ef p p1 (by omega)

theorem call_ok {v : List α} {fuel : Nat} (hv : 1 ≤ v.length) (hf : v.length ≤ fuel)
    (hF : Fits (4 * v.length) 0 ((v.length : Int) - 1) 1) {S : Int → Prop} {t : Nat → Node α} (hi : Denotes v S t) (c : Call α)
    (hr : Call.Right v.length S c) :
    ∃ t', Call.exec fuel ⟨v.length, t⟩ c = .ok ⟨v.length, t'⟩ ∧ (applyCall v c).length = v.length ∧
      Denotes (applyCall v c) (settles S c) t' ∧
      (∀ nn, (nn → Call.NonNeg c) → Pos nn t → Pos nn t') ∧
      (∀ nn a b, (nn → Call.NonNeg c) → Call.Respects a b c → Pos nn t → (∃ w, c = .init w) ∨ Good nn a b t 0 ((v.length : Int) - 1) 1 →
        Good nn a b t' 0 ((v.length : Int) - 1) 1) := by
  cases c with
  | op c =>
    have e0 := clip_range hr
    obtain ⟨t', e, iv, ps, gd⟩ := node_exec hf hF hi (.root) c (by rw [e0]; exact hr)
    rw [e0] at iv ps gd
    refine ⟨t', by rw [Call.exec, exec_root]; exact e, length_apply v c, ⟨iv.st, fun p p1 p2 hp => iv.free p p1 p2 ?_⟩,
      fun nn h => ps nn fun q => h q c rfl, fun nn a b h1 h2 h3 h4 => gd nn a b (fun q => h1 q c rfl) (h2 c rfl) h3 ?_⟩
    · unfold settles short at hp ⊢
      dsimp only at hp ⊢
      rw [e0]; exact hp
    · rcases h4 with ⟨w, h4⟩ | h4
      · cases h4
      · exact h4
  | node l r o c =>
    obtain ⟨h1, h2, p, hp, p1, p2⟩ := hr
    obtain ⟨-, l0, -, r0⟩ := NodeOf.range hv h1
    obtain ⟨t', e, iv, ps, gd⟩ := node_exec hf hF hi (clear_of (hi.free p (by omega) (by omega) hp) h1 p1 p2).1 c h2
    refine ⟨t', e, length_apply v _, iv, fun nn h => ps nn fun q => h q _ rfl,
      fun nn a b h1 h2 h3 h4 => gd nn a b (fun q => h1 q _ rfl) (h2 _ rfl) h3 ?_⟩
    rcases h4 with ⟨w, h4⟩ | h4
    · cases h4
    · exact h4
  | init w =>
    obtain ⟨h1, h2⟩ := hr
    obtain ⟨t', e, st, fz, ps, g⟩ := init_all hv hf h1 (fun p p1 p2 => hi.free p p1 p2 (h2 p p1 p2))
    refine ⟨t', e, h1, ⟨st, fun p p1 p2 _ => ?_⟩, fun nn _ => ps nn, fun nn a b _ _ _ _ => g nn a b⟩
    have p2 : p < (w.length : Int) := p2
    show Free t' 0 ((w.length : Int) - 1) 1 p
    rw [h1] at p2 ⊢
    exact fz p p1 p2

theorem undisturbed_tail {a b : Int} {c : Call α} {cs : List (Call α)} (h : Undisturbed a b (c :: cs)) : Undisturbed a b cs :=
  fun pre d post e => h (c :: pre) d post (by rw [e]; rfl)

theorem undisturbed_cons {a b : Int} {c : Call α} {cs : List (Call α)} :
    Undisturbed a b (c :: cs) ↔ (Call.Respects a b c ∨ ∃ w, Call.init w ∈ cs) ∧ Undisturbed a b cs := by
  refine ⟨fun h => ⟨h [] c cs rfl, undisturbed_tail h⟩, fun ⟨h1, h2⟩ pre d post e => ?_⟩
  cases pre with
  | nil => cases e; exact h1
  | cons x pre => cases e; exact h2 pre d post rfl

theorem undisturbed_nil {a b : Int} : Undisturbed a b ([] : List (Call α)) := fun pre d post e => by cases pre <;> cases e

theorem callsFrom_ok {fuel : Nat} (cs : List (Call α)) : ∀ {v : List α} (_ : 1 ≤ v.length) (_ : v.length ≤ fuel)
    (_ : Fits (4 * v.length) 0 ((v.length : Int) - 1) 1) {S : Int → Prop} {t : Nat → Node α} (_ : Denotes v S t)
    (_ : AllRight v.length S cs),
    ∃ t', cs.foldlM (Call.exec fuel) ⟨v.length, t⟩ = .ok ⟨v.length, t'⟩ ∧ (valuesOf v cs).length = v.length ∧
      Denotes (valuesOf v cs) (settledBy S cs) t' ∧
      ∀ nn, (nn → ∀ c ∈ cs, Call.NonNeg c) → Pos nn t → Pos nn t' ∧
        ∀ a b, Undisturbed a b cs → (∃ w, Call.init w ∈ cs) ∨ Good nn a b t 0 ((v.length : Int) - 1) 1 →
          Good nn a b t' 0 ((v.length : Int) - 1) 1 := by
  induction cs with
  | nil =>
    intro v _ _ _ S t hi _
    refine ⟨t, rfl, rfl, hi, fun nn _ hp => ⟨hp, fun a b _ h => ?_⟩⟩
    rcases h with ⟨w, h⟩ | h
    · cases h
    · exact h
  | cons c cs ih =>
    intro v hv hf hF S t hi hr
    obtain ⟨t1, e, hl, iv, ps, gd⟩ := call_ok hv hf hF hi c hr.1
    obtain ⟨t2, e2, l2, st2, q⟩ := ih (v := applyCall v c) (by omega) (by rw [hl]; exact hf) (by rw [hl]; exact hF) iv
      (by rw [hl]; exact hr.2)
    rw [hl] at e2 q l2
    refine ⟨t2, by rw [List.foldlM_cons, e, Out.ok_bind, e2], l2, st2, fun nn hn hp => ?_⟩
    obtain ⟨q1, q2⟩ := q nn (fun h o ho => hn h o (by simp [ho])) (ps nn (fun h => hn h c (by simp)) hp)
    refine ⟨q1, fun a b hU g => q2 a b (undisturbed_tail hU) ?_⟩
    by_cases hI : ∃ w, Call.init w ∈ cs
    · exact .inl hI
    · right
      have hR : Call.Respects a b c := (hU [] c cs rfl).resolve_right hI
      refine gd nn a b (fun h => hn h c (by simp)) hR hp ?_
      rcases g with ⟨w, g⟩ | g
      · rcases List.mem_cons.1 g with g | g
        · exact .inl ⟨w, g.symm⟩
        · exact absurd ⟨w, g⟩ hI
      · exact .inr g

theorem calls_ok {fuel : Nat} {v : List α} (hv : v ≠ []) (hf : v.length ≤ fuel)
    (hF : Fits (4 * v.length) 0 ((v.length : Int) - 1) 1) (cs : List (Call α)) (hr : AllRight v.length (fun _ => True) cs) :
    ∃ t, runCalls fuel v cs = .ok ⟨v.length, t⟩ ∧ (valuesOf v cs).length = v.length ∧
      Denotes (valuesOf v cs) (settledBy (fun _ => True) cs) t ∧
      ∀ nn, (nn → ∀ c ∈ cs, Call.NonNeg c) → Pos nn t ∧ ∀ a b, Undisturbed a b cs → Good nn a b t 0 ((v.length : Int) - 1) 1 := by
  have hl : 1 ≤ v.length := by cases v with | nil => exact absurd rfl hv | cons => simp
  obtain ⟨t, e, st, cl, ps, gd⟩ := build_ok fuel v hv hf
  obtain ⟨t', e', l', st', q⟩ := callsFrom_ok cs hl hf hF (S := fun _ => True)
    ⟨st, fun p _ _ _ => free_clean _ _ _ (by omega) cl p⟩ hr
  refine ⟨t', by rw [runCalls, e, Out.ok_bind, e'], l', st', fun nn hn => ?_⟩
  obtain ⟨q1, q2⟩ := q nn hn (ps nn)
  exact ⟨q1, fun a b hU => q2 a b hU (.inr (gd nn a b))⟩

omit [LinearOrder α] [IsStrictOrderedRing α] [CommRing α] in
theorem elemAt_none {w : List α} {l : Int} (h : (w.length : Int) ≤ l) : elemAt w l = .ub := by
  unfold elemAt
  rw [if_pos (by omega), List.getElem?_eq_none (by omega)]

/-- a vector that is too short -/
theorem init_short (w : List α) (N : Nat) : ∀ (l r : Int) (o : Nat), l ≤ r → ∀ (fuel : Nat) (t : Nat → Node α), (r - l).toNat < fuel →
    1 ≤ o → Room (4 * N) l r o → 0 ≤ l → (w.length : Int) ≤ r → init w fuel l r o ⟨N, t⟩ = .ub := by
  have some : ∀ (l r : Int) (o : Nat), l ≤ r → ∀ (fuel : Nat) (t : Nat → Node α), (r - l).toNat < fuel →
      1 ≤ o → Room (4 * N) l r o → 0 ≤ l → ((w.length : Int) ≤ r → init w fuel l r o ⟨N, t⟩ = .ub) ∧
      (r < w.length → ∃ t', init w fuel l r o ⟨N, t⟩ = .ok ⟨N, t'⟩) := by
    refine seg_ind ?_ ?_
    · intro l o fuel t hf ho hR h0
      obtain ⟨fuel, rfl⟩ : ∃ k, fuel = k + 1 := ⟨fuel - 1, by omega⟩
      refine ⟨fun h => ?_, fun h => ?_⟩
      · rw [init, if_pos rfl, elemAt_none h]; rfl
      · rw [init, if_pos rfl, elemAt_ok h0 (val_some w h0 h), Out.ok_bind, at_ok (t := ⟨N, t⟩) (room_lt hR), Out.ok_bind,
          put_ok _ (room_lt hR)]
        exact ⟨_, rfl⟩
    · intro l r o hlr hL hRt fuel t hf ho hR h0
      obtain ⟨fuel, rfl⟩ : ∃ k, fuel = k + 1 := ⟨fuel - 1, by omega⟩
      have hRo := room_lt hR
      rw [Room, if_pos hlr] at hR
      rw [init, if_neg (by omega)]
      dsimp only
      obtain ⟨u1, k1⟩ := hL fuel t (by omega) (by omega) hR.2.1 h0
      refine ⟨fun h => ?_, fun h => ?_⟩
      · by_cases c : (w.length : Int) ≤ (l + r) / 2
        · rw [u1 c]; rfl
        · obtain ⟨t1, e1⟩ := k1 (by omega)
          rw [e1, Out.ok_bind, (hRt fuel t1 (by omega) (by omega) hR.2.2 (by omega)).1 h]; rfl
      · obtain ⟨t1, e1⟩ := k1 (by omega)
        obtain ⟨t2, e2⟩ := (hRt fuel t1 (by omega) (by omega) hR.2.2 (by omega)).2 h
        rw [e1, Out.ok_bind, e2, Out.ok_bind, at_ok (t := ⟨N, t2⟩) (room_lt hR.2.1), Out.ok_bind,
          at_ok (t := ⟨N, t2⟩) (room_lt hR.2.2), Out.ok_bind, at_ok (t := ⟨N, t2⟩) hRo, Out.ok_bind, put_ok _ hRo]
        exact ⟨_, rfl⟩
  exact fun l r o h fuel t h1 h2 h3 h4 => (some l r o h fuel t h1 h2 h3 h4).1

end SegmentTree
