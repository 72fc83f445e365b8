import Verif.Proof.SegmentTree
import Verif.Spec.SegmentTreeExact

/-! # Segment trees: the aggregate of every block (proof machinery) -/

namespace SegmentTree
open Cpp Spec

variable {α : Type} [CommRing α] [LinearOrder α] [IsStrictOrderedRing α]

/-- `a..b` is one of the intervals met when halving `l..r`. -/
inductive IsBlk (a b : Int) : Int → Int → Prop where
  | self : a ≤ b → IsBlk a b a b
  | left {l r : Int} : l < r → IsBlk a b l ((l + r) / 2) → IsBlk a b l r
  | right {l r : Int} : l < r → IsBlk a b ((l + r) / 2 + 1) r → IsBlk a b l r

theorem IsBlk.sub {a b l r : Int} (h : IsBlk a b l r) : l ≤ a ∧ a ≤ b ∧ b ≤ r := by
  induction h with
  | self h => omega
  | left h1 _ ih => omega
  | right h1 _ ih => omega

omit [LinearOrder α] [IsStrictOrderedRing α] in
/-- The pending changes of a node, for an aggregate in which a summand counts `k` times. -/
def appW (k : α) (nd : Node α) (x : α) : α :=
  (if nd.hasMul then x * nd.mul else x) + (if nd.hasAdd then nd.add * k else 0)

omit [LinearOrder α] [IsStrictOrderedRing α] in
theorem appW_pushed (k : α) (nd c : Node α) (x : α) : appW k (pushed nd c) x = appW k nd (appW k c x) := by
  unfold appW pushed pushAdd pushMul
  cases nd.hasMul <;> cases nd.hasAdd <;> cases hc : c.hasMul <;> cases hd : c.hasAdd <;> simp [hc, hd] <;> ring

omit [LinearOrder α] [IsStrictOrderedRing α] in
theorem appW_none {k : α} {nd : Node α} (hm : nd.hasMul = false) (ha : nd.hasAdd = false) (x : α) :
    appW k nd x = x := by simp [appW, hm, ha]

omit [LinearOrder α] [IsStrictOrderedRing α] in
theorem appW_settle (k : α) (nd : Node α) (len : Int) (x : α) : appW k (settle nd len) x = x := by
  simp [appW, settle]

omit [LinearOrder α] [IsStrictOrderedRing α] in
/-- A stored aggregate in which a summand counts `kf len` times. -/
structure Sel (sel : Node α → α) (kf : Int → α) : Prop where
  settle : ∀ nd len, sel (settle nd len) = appW (kf len) nd (sel nd)
  pushed : ∀ nd c, sel (pushed nd c) = sel c

omit [LinearOrder α] [IsStrictOrderedRing α] in
theorem sel_sm : Sel (α := α) Node.sm (fun len => (len : α)) :=
  ⟨fun _ _ => rfl, fun nd c => (pushed_vals nd c).1⟩

omit [LinearOrder α] [IsStrictOrderedRing α] in
theorem sel_mn : Sel (α := α) Node.mn (fun _ => 1) :=
  ⟨fun nd _ => by simp [SegmentTree.settle, app, appW], fun nd c => (pushed_vals nd c).2.1⟩

omit [LinearOrder α] [IsStrictOrderedRing α] in
theorem sel_mx : Sel (α := α) Node.mx (fun _ => 1) :=
  ⟨fun nd _ => by simp [SegmentTree.settle, app, appW], fun nd c => (pushed_vals nd c).2.2⟩

omit [LinearOrder α] [IsStrictOrderedRing α] in
/-- The aggregate of the block `a..b`, with the changes pending at and above it. -/
def effB (sel : Node α → α) (kf : Int → α) (t : Nat → Node α) (l r : Int) (o : Nat) (a b : Int) : α :=
  appW (kf (b - a + 1)) (t o)
    (if l < r ∧ ¬ (a = l ∧ b = r) then
      (if b ≤ (l + r) / 2 then effB sel kf t l ((l + r) / 2) (2 * o) a b
       else effB sel kf t ((l + r) / 2 + 1) r (2 * o + 1) a b)
     else sel (t o))
termination_by (r - l).toNat
decreasing_by all_goals omega

section
variable {sel : Node α → α} {kf : Int → α}

omit [LinearOrder α] [IsStrictOrderedRing α] in
theorem effB_self (t : Nat → Node α) (a b : Int) (o : Nat) :
    effB sel kf t a b o a b = appW (kf (b - a + 1)) (t o) (sel (t o)) := by
  rw [effB, if_neg (by simp)]

omit [LinearOrder α] [IsStrictOrderedRing α] in
theorem effB_left (t : Nat → Node α) {a b l r : Int} (o : Nat) (hlr : l < r) (h : IsBlk a b l ((l + r) / 2)) :
    effB sel kf t l r o a b = appW (kf (b - a + 1)) (t o) (effB sel kf t l ((l + r) / 2) (2 * o) a b) := by
  have := h.sub
  rw [effB, if_pos ⟨hlr, by omega⟩, if_pos (by omega)]

omit [LinearOrder α] [IsStrictOrderedRing α] in
theorem effB_right (t : Nat → Node α) {a b l r : Int} (o : Nat) (hlr : l < r) (h : IsBlk a b ((l + r) / 2 + 1) r) :
    effB sel kf t l r o a b = appW (kf (b - a + 1)) (t o) (effB sel kf t ((l + r) / 2 + 1) r (2 * o + 1) a b) := by
  have := h.sub
  rw [effB, if_pos ⟨hlr, by omega⟩, if_neg (by omega)]

omit [LinearOrder α] [IsStrictOrderedRing α] in
theorem effB_congr {t t' : Nat → Node α} {a b l r : Int} (h : IsBlk a b l r) : ∀ {o : Nat},
    (∀ x, Desc o x → t' x = t x) → effB sel kf t' l r o a b = effB sel kf t l r o a b := by
  induction h with
  | self _ => intro o h; rw [effB_self, effB_self, h o (desc_self o)]
  | left h1 h2 ih =>
    intro o h
    rw [effB_left _ _ h1 h2, effB_left _ _ h1 h2, h o (desc_self o), ih fun x hx => h x (desc_of_left hx)]
  | right h1 h2 ih =>
    intro o h
    rw [effB_right _ _ h1 h2, effB_right _ _ h1 h2, h o (desc_self o), ih fun x hx => h x (desc_of_right hx)]

theorem upd_effB_child (hS : Sel sel kf) (t : Nat → Node α) {o c : Nat} {l r l' r' a b : Int} (ho : 1 ≤ o)
    (hc : c = 2 * o ∨ c = 2 * o + 1) (h : IsBlk a b l' r') :
    effB sel kf (upd t o l r) l' r' c a b = appW (kf (b - a + 1)) (t o) (effB sel kf t l' r' c a b) := by
  cases h with
  | self _ => rw [effB_self, effB_self, upd_child t l r ho hc, appW_pushed, hS.pushed]
  | left h1 h2 =>
    rw [effB_left _ _ h1 h2, effB_left _ _ h1 h2, upd_child t l r ho hc, appW_pushed,
      effB_congr h2 fun x hx => upd_below t l r ho hc (.inl hx)]
  | right h1 h2 =>
    rw [effB_right _ _ h1 h2, effB_right _ _ h1 h2, upd_child t l r ho hc, appW_pushed,
      effB_congr h2 fun x hx => upd_below t l r ho hc (.inr hx)]

theorem upd_effB (hS : Sel sel kf) (t : Nat → Node α) {o : Nat} {l r a b : Int} (ho : 1 ≤ o) (h : IsBlk a b l r) :
    effB sel kf (upd t o l r) l r o a b = effB sel kf t l r o a b := by
  cases h with
  | self _ => rw [effB_self, effB_self, upd_self, appW_settle, hS.settle]
  | left h1 h2 =>
    rw [effB_left _ _ h1 h2, effB_left _ _ h1 h2, upd_self, appW_settle, upd_effB_child hS t ho (.inl rfl) h2]
  | right h1 h2 =>
    rw [effB_right _ _ h1 h2, effB_right _ _ h1 h2, upd_self, appW_settle, upd_effB_child hS t ho (.inr rfl) h2]

/-- The blocks of a query joined in the order of the code. -/
def ans (comb : α → α → α) (f : Int → Int → α) (lv rv l r : Int) : α :=
  if (lv ≤ l ∧ r ≤ rv) ∨ ¬ l < r then f l r
  else if rv ≤ (l + r) / 2 then ans comb f lv rv l ((l + r) / 2)
  else if lv > (l + r) / 2 then ans comb f lv rv ((l + r) / 2 + 1) r
  else comb (ans comb f lv rv l ((l + r) / 2)) (ans comb f lv rv ((l + r) / 2 + 1) r)
termination_by (r - l).toNat
decreasing_by all_goals omega

omit [CommRing α] [LinearOrder α] [IsStrictOrderedRing α] in
theorem ans_congr {comb : α → α → α} {f g : Int → Int → α} {lv rv : Int} : ∀ (l r : Int) (_ : Nat), l ≤ r →
    (∀ a b, IsBlk a b l r → f a b = g a b) → ans comb f lv rv l r = ans comb g lv rv l r := by
  refine seg_ind (P := fun l r _ => (∀ a b, IsBlk a b l r → f a b = g a b) →
    ans comb f lv rv l r = ans comb g lv rv l r) ?_ ?_
  · intro l _ h
    rw [ans, if_pos (.inr (by omega)), h l l (.self (le_refl l)), ans, if_pos (.inr (by omega))]
  · intro l r _ hlr hL hR h
    rw [ans]
    conv_rhs => rw [ans]
    rw [h l r (.self hlr.le), hL fun a b hab => h a b (.left hlr hab), hR fun a b hab => h a b (.right hlr hab)]

theorem query_exact (hS : Sel sel kf) {sel0 : Node α → α} {comb : α → α → α} {lv rv : Int} (N : Nat) : ∀ (l r : Int) (o : Nat), l ≤ r →
    ∀ (fuel : Nat) (t : Nat → Node α) (s : Seg α) (x : α), 1 ≤ o → Fits (4 * N) l r o → lv ≤ rv → lv ≤ r → l ≤ rv →
      query sel0 comb lv rv fuel l r o ⟨N, t⟩ = .ok (s, x) →
      s.size = N ∧ (∀ y, ¬ Desc o y → s.node y = t y) ∧
      (∀ a b, IsBlk a b l r → effB sel kf s.node l r o a b = effB sel kf t l r o a b) ∧
      (sel0 = sel → x = ans comb (fun a b => effB sel kf t l r o a b) lv rv l r) := by
  refine seg_ind (P := fun l r o => ∀ (fuel : Nat) (t : Nat → Node α) (s : Seg α) (x : α), 1 ≤ o →
      Fits (4 * N) l r o → lv ≤ rv → lv ≤ r → l ≤ rv →
      query sel0 comb lv rv fuel l r o ⟨N, t⟩ = .ok (s, x) →
      s.size = N ∧ (∀ y, ¬ Desc o y → s.node y = t y) ∧
      (∀ a b, IsBlk a b l r → effB sel kf s.node l r o a b = effB sel kf t l r o a b) ∧
      (sel0 = sel → x = ans comb (fun a b => effB sel kf t l r o a b) lv rv l r)) ?_ ?_
  · intro l o fuel t s x ho hF h1 h2 h3 e
    cases fuel with
    | zero => simp [query] at e
    | succ fuel =>
      rw [query, update_ok ho (fits_child hF), Out.ok_bind, if_pos ⟨h2, h3⟩, at_ok (fits_lt hF), Out.ok_bind] at e
      simp only [Out.ok.injEq, Prod.mk.injEq] at e
      obtain ⟨rfl, rfl⟩ := e
      refine ⟨rfl, fun y hy => upd_other t l l hy, fun a b hab => upd_effB hS t ho hab, ?_⟩
      rintro rfl
      rw [ans, if_pos (.inl ⟨h2, h3⟩), effB_self, upd_self, hS.settle]
  · intro l r o hlr hL hR fuel t s x ho hF h1 h2 h3 e
    cases fuel with
    | zero => simp [query] at e
    | succ fuel =>
      rw [query, update_ok ho (fits_child hF), Out.ok_bind] at e
      by_cases hc : lv ≤ l ∧ rv ≥ r
      · rw [if_pos hc, at_ok (fits_lt hF), Out.ok_bind] at e
        simp only [Out.ok.injEq, Prod.mk.injEq] at e
        obtain ⟨rfl, rfl⟩ := e
        refine ⟨rfl, fun y hy => upd_other t l r hy, fun a b hab => upd_effB hS t ho hab, ?_⟩
        rintro rfl
        rw [ans, if_pos (.inl hc), effB_self, upd_self, hS.settle]
      · rw [if_neg hc] at e
        dsimp only at e
        have hF' := hF
        rw [Fits, if_pos hlr] at hF'
        have hna : ¬ ((lv ≤ l ∧ r ≤ rv) ∨ ¬ l < r) := by
          rintro (h | h)
          · exact hc h
          · exact h hlr
        have cl : ∀ a b, IsBlk a b l ((l + r) / 2) →
            effB sel kf (upd t o l r) l ((l + r) / 2) (2 * o) a b = effB sel kf t l r o a b := fun a b hab => by
          rw [upd_effB_child hS t ho (.inl rfl) hab, effB_left t o hlr hab]
        have cr : ∀ a b, IsBlk a b ((l + r) / 2 + 1) r →
            effB sel kf (upd t o l r) ((l + r) / 2 + 1) r (2 * o + 1) a b = effB sel kf t l r o a b := fun a b hab => by
          rw [upd_effB_child hS t ho (.inr rfl) hab, effB_right t o hlr hab]
        -- joining what is left of the two halves
        have join : ∀ t' : Nat → Node α, t' o = upd t o l r o →
            (∀ a b, IsBlk a b l ((l + r) / 2) → effB sel kf t' l ((l + r) / 2) (2 * o) a b =
              effB sel kf (upd t o l r) l ((l + r) / 2) (2 * o) a b) →
            (∀ a b, IsBlk a b ((l + r) / 2 + 1) r → effB sel kf t' ((l + r) / 2 + 1) r (2 * o + 1) a b =
              effB sel kf (upd t o l r) ((l + r) / 2 + 1) r (2 * o + 1) a b) →
            ∀ a b, IsBlk a b l r → effB sel kf t' l r o a b = effB sel kf t l r o a b := by
          intro t' ht hl hr a b hab
          rw [← upd_effB hS t ho hab]
          cases hab with
          | self _ => rw [effB_self, effB_self, ht]
          | left g1 g2 => rw [effB_left _ _ g1 g2, effB_left _ _ g1 g2, ht, hl _ _ g2]
          | right g1 g2 => rw [effB_right _ _ g1 g2, effB_right _ _ g1 g2, ht, hr _ _ g2]
        by_cases hm : rv ≤ (l + r) / 2
        · rw [if_pos hm] at e
          obtain ⟨i1, i2, i3, i4⟩ := hL fuel _ s x (by omega) hF'.2.1 h1 (by omega) h3 e
          refine ⟨i1, fun y hy => ?_, join _ (i2 o (not_desc_left ho)) i3 fun a b hab => ?_, ?_⟩
          · rw [i2 y fun hd => hy (desc_of_left hd), upd_other t l r hy]
          · exact effB_congr hab fun y hy => i2 y fun hd => desc_disjoint ho hd hy
          · intro h0; rw [i4 h0, ans_congr _ _ 0 (by omega) cl]
            conv_rhs => rw [ans]
            rw [if_neg hna, if_pos hm]
        · rw [if_neg hm] at e
          by_cases hm' : lv > (l + r) / 2
          · rw [if_pos hm'] at e
            obtain ⟨i1, i2, i3, i4⟩ := hR fuel _ s x (by omega) hF'.2.2 h1 (by omega) (by omega) e
            refine ⟨i1, fun y hy => ?_, join _ (i2 o not_desc_right) (fun a b hab => ?_) i3, ?_⟩
            · rw [i2 y fun hd => hy (desc_of_right hd), upd_other t l r hy]
            · exact effB_congr hab fun y hy => i2 y fun hd => desc_disjoint ho hy hd
            · intro h0; rw [i4 h0, ans_congr _ _ 0 (by omega) cr]
              conv_rhs => rw [ans]
              rw [if_neg hna, if_neg hm, if_pos hm']
          · rw [if_neg hm'] at e
            obtain ⟨⟨s1, x1⟩, e1, e⟩ := Out.bind_eq_ok.1 e
            obtain ⟨⟨s2, x2⟩, e2, e⟩ := Out.bind_eq_ok.1 e
            simp only [Out.ok.injEq, Prod.mk.injEq] at e
            obtain ⟨rfl, rfl⟩ := e
            obtain ⟨i1, i2, i3, i4⟩ := hL fuel _ s1 x1 (by omega) hF'.2.1 h1 (by omega) h3 e1
            obtain ⟨n1, t1⟩ := s1
            dsimp only at i1 i2 i3 e2
            subst i1
            obtain ⟨j1, j2, j3, j4⟩ := hR fuel _ s2 x2 (by omega) hF'.2.2 h1 (by omega) (by omega) e2
            have rt : ∀ a b, IsBlk a b ((l + r) / 2 + 1) r → effB sel kf t1 ((l + r) / 2 + 1) r (2 * o + 1) a b =
                effB sel kf (upd t o l r) ((l + r) / 2 + 1) r (2 * o + 1) a b := fun a b hab =>
              effB_congr hab fun y hy => i2 y fun hd => desc_disjoint ho hd hy
            refine ⟨j1, fun y hy => ?_, join _ ?_ (fun a b hab => ?_) (fun a b hab => ?_), ?_⟩
            · rw [j2 y fun hd => hy (desc_of_right hd), i2 y fun hd => hy (desc_of_left hd), upd_other t l r hy]
            · rw [j2 o not_desc_right, i2 o (not_desc_left ho)]
            · rw [effB_congr hab fun y hy => j2 y fun hd => desc_disjoint ho hy hd, i3 a b hab]
            · rw [j3 a b hab, rt a b hab]
            · intro h0; rw [i4 h0, j4 h0, ans_congr _ _ 0 (by omega) cl,
                ans_congr _ _ 0 (by omega) (fun a b hab => (rt a b hab).trans (cr a b hab))]
              conv_rhs => rw [ans]
              rw [if_neg hna, if_neg hm, if_neg hm']

/-- A change of a settled node which acts as `g k` on aggregates in which a summand counts `k` times. -/
structure TagW (sel : Node α → α) (tag : Node α → Node α) (g : α → α → α) : Prop where
  val : ∀ nd, sel (tag nd) = sel nd
  act : ∀ nd k x, nd.hasMul = false → nd.hasAdd = false → appW k (tag nd) x = g k x

theorem change_exact (hS : Sel sel kf) {tag : Node α → Node α} {g : α → α → α} (hT : TagW sel tag g) {lv rv : Int}
    (N : Nat) : ∀ (l r : Int) (o : Nat), l ≤ r →
    ∀ (fuel : Nat) (t : Nat → Node α) (s : Seg α), 1 ≤ o → Fits (4 * N) l r o → lv ≤ rv → lv ≤ r → l ≤ rv →
      change tag lv rv fuel l r o ⟨N, t⟩ = .ok s →
      s.size = N ∧ (∀ y, ¬ Desc o y → s.node y = t y) ∧
      (∀ a b, IsBlk a b l r → effB sel kf s.node l r o a b =
        if lv ≤ a ∧ b ≤ rv then g (kf (b - a + 1)) (effB sel kf t l r o a b) else effB sel kf t l r o a b) := by
  have cover : ∀ (l r : Int) (o : Nat) (t : Nat → Node α) (s : Seg α), 1 ≤ o → Fits (4 * N) l r o →
      lv ≤ l → r ≤ rv → (do
        let nd ← (Seg.at ⟨N, upd t o l r⟩ o)
        Seg.put ⟨N, upd t o l r⟩ o (tag nd)) = Out.ok s →
      s.size = N ∧ (∀ y, ¬ Desc o y → s.node y = t y) ∧
      (∀ a b, IsBlk a b l r → effB sel kf s.node l r o a b =
        if lv ≤ a ∧ b ≤ rv then g (kf (b - a + 1)) (effB sel kf t l r o a b) else effB sel kf t l r o a b) := by
    intro l r o t s ho hF h1 h2 e
    rw [at_ok (fits_lt hF), Out.ok_bind, put_ok _ (fits_lt hF)] at e
    simp only [Out.ok.injEq] at e
    subst e
    refine ⟨rfl, fun y hy => ?_, fun a b hab => ?_⟩
    · dsimp only
      rw [if_neg (fun e : y = o => hy (e ▸ desc_self o)), upd_other t l r hy]
    · have := hab.sub
      rw [if_pos ⟨by omega, by omega⟩, ← upd_effB hS t ho hab]
      dsimp only
      have hm : (upd t o l r o).hasMul = false := by rw [upd_self]; rfl
      have ha : (upd t o l r o).hasAdd = false := by rw [upd_self]; rfl
      have far : ∀ y, Desc (2 * o) y ∨ Desc (2 * o + 1) y →
          (if y = o then tag (upd t o l r o) else upd t o l r y) = upd t o l r y := fun y hy =>
        if_neg (desc_strict ho hy).2
      cases hab with
      | self _ => rw [effB_self, effB_self, if_pos rfl, hT.act _ _ _ hm ha, hT.val, appW_none hm ha]
      | left g1 g2 =>
        rw [effB_left _ _ g1 g2, effB_left _ _ g1 g2, if_pos rfl, hT.act _ _ _ hm ha, appW_none hm ha,
          effB_congr g2 fun y hy => far y (.inl hy)]
      | right g1 g2 =>
        rw [effB_right _ _ g1 g2, effB_right _ _ g1 g2, if_pos rfl, hT.act _ _ _ hm ha, appW_none hm ha,
          effB_congr g2 fun y hy => far y (.inr hy)]
  refine seg_ind (P := fun l r o => ∀ (fuel : Nat) (t : Nat → Node α) (s : Seg α), 1 ≤ o → Fits (4 * N) l r o →
      lv ≤ rv → lv ≤ r → l ≤ rv → change tag lv rv fuel l r o ⟨N, t⟩ = .ok s →
      s.size = N ∧ (∀ y, ¬ Desc o y → s.node y = t y) ∧
      (∀ a b, IsBlk a b l r → effB sel kf s.node l r o a b =
        if lv ≤ a ∧ b ≤ rv then g (kf (b - a + 1)) (effB sel kf t l r o a b) else effB sel kf t l r o a b)) ?_ ?_
  · intro l o fuel t s ho hF h1 h2 h3 e
    cases fuel with
    | zero => simp [change] at e
    | succ fuel =>
      rw [change, update_ok ho (fits_child hF), Out.ok_bind, if_pos ⟨h2, h3⟩] at e
      exact cover l l o t s ho hF h2 h3 e
  · intro l r o hlr hL hR fuel t s ho hF h1 h2 h3 e
    cases fuel with
    | zero => simp [change] at e
    | succ fuel =>
      rw [change, update_ok ho (fits_child hF), Out.ok_bind] at e
      by_cases hc : lv ≤ l ∧ rv ≥ r
      · rw [if_pos hc] at e
        exact cover l r o t s ho hF hc.1 hc.2 e
      · rw [if_neg hc] at e
        dsimp only at e
        have hF' := hF
        rw [Fits, if_pos hlr] at hF'
        have hu : ∀ x, appW x (upd t o l r o) = id := fun k => funext fun x => by rw [upd_self, appW_settle]; rfl
        -- the left half
        obtain ⟨s1, e1, e2⟩ := Out.bind_eq_ok.1 e
        clear e
        have LL : s1.size = N ∧ (∀ y, ¬ Desc (2 * o) y → s1.node y = upd t o l r y) ∧
            (∀ a b, IsBlk a b l ((l + r) / 2) → effB sel kf s1.node l ((l + r) / 2) (2 * o) a b =
              if lv ≤ a ∧ b ≤ rv then g (kf (b - a + 1)) (effB sel kf (upd t o l r) l ((l + r) / 2) (2 * o) a b)
              else effB sel kf (upd t o l r) l ((l + r) / 2) (2 * o) a b) := by
          by_cases hm : lv ≤ (l + r) / 2
          · rw [if_pos hm] at e1
            exact hL fuel _ s1 (by omega) hF'.2.1 h1 hm h3 e1
          · rw [if_neg hm] at e1
            cases e1
            refine ⟨rfl, fun _ _ => rfl, fun a b hab => ?_⟩
            have := hab.sub
            rw [if_neg (by omega)]
        obtain ⟨n1, t1⟩ := s1
        obtain ⟨i1, i2, i3⟩ := LL
        dsimp only at i1 i2 i3
        subst i1
        have RR : s.size = n1 ∧ (∀ y, ¬ Desc (2 * o + 1) y → s.node y = t1 y) ∧
            (∀ a b, IsBlk a b ((l + r) / 2 + 1) r → effB sel kf s.node ((l + r) / 2 + 1) r (2 * o + 1) a b =
              if lv ≤ a ∧ b ≤ rv then g (kf (b - a + 1)) (effB sel kf t1 ((l + r) / 2 + 1) r (2 * o + 1) a b)
              else effB sel kf t1 ((l + r) / 2 + 1) r (2 * o + 1) a b) := by
          by_cases hm : rv > (l + r) / 2
          · rw [if_pos hm] at e2
            exact hR fuel _ s (by omega) hF'.2.2 h1 h2 (by omega) e2
          · rw [if_neg hm] at e2
            cases e2
            refine ⟨rfl, fun _ _ => rfl, fun a b hab => ?_⟩
            have := hab.sub
            rw [if_neg (by omega)]
        obtain ⟨j1, j2, j3⟩ := RR
        have hself : s.node o = upd t o l r o := by rw [j2 o not_desc_right, i2 o (not_desc_left ho)]
        refine ⟨j1, fun y hy => ?_, fun a b hab => ?_⟩
        · rw [j2 y fun hd => hy (desc_of_right hd), i2 y fun hd => hy (desc_of_left hd), upd_other t l r hy]
        · rw [← upd_effB hS t ho hab]
          cases hab with
          | self _ => rw [effB_self, effB_self, hself, if_neg (by omega)]
          | left g1 g2 =>
            rw [effB_left _ _ g1 g2, effB_left _ _ g1 g2, hself, hu, id, id,
              effB_congr g2 fun y hy => j2 y fun hd => desc_disjoint ho hy hd, i3 a b g2]
          | right g1 g2 =>
            rw [effB_right _ _ g1 g2, effB_right _ _ g1 g2, hself, hu, id, id, j3 a b g2,
              effB_congr g2 fun y hy => i2 y fun hd => desc_disjoint ho hd hy]

omit [LinearOrder α] [IsStrictOrderedRing α] in
theorem tagW_add (x : α) (h : ∀ nd : Node α, sel { nd with add := x, hasAdd := true } = sel nd) :
    TagW sel (fun nd : Node α => { nd with add := x, hasAdd := true }) (fun k y => y + x * k) :=
  ⟨h, fun nd k y hm _ => by simp [appW, hm]⟩

omit [LinearOrder α] [IsStrictOrderedRing α] in
theorem tagW_mul (x : α) (h : ∀ nd : Node α, sel { nd with mul := x, hasMul := true } = sel nd) :
    TagW sel (fun nd : Node α => { nd with mul := x, hasMul := true }) (fun _ y => y * x) :=
  ⟨h, fun nd k y _ ha => by simp [appW, ha]⟩

/-! ### Histories -/

/-- The three aggregates are not touched by storing a summand or factor. -/
structure Plain (sel : Node α → α) : Prop where
  add : ∀ (nd : Node α) (x : α), sel { nd with add := x, hasAdd := true } = sel nd
  mul : ∀ (nd : Node α) (x : α), sel { nd with mul := x, hasMul := true } = sel nd

theorem exec_exact (hS : Sel sel kf) (hP : Plain sel) {N fuel : Nat} (hF : Fits (4 * N) 0 ((N : Int) - 1) 1)
    (t : Nat → Node α) (s : Seg α) (op : Op α) (hr : Op.InRange N op) (e : exec fuel ⟨N, t⟩ op = .ok s) :
    s.size = N ∧ ∀ a b, IsBlk a b 0 ((N : Int) - 1) →
      effB sel kf s.node 0 ((N : Int) - 1) 1 a b =
        touch (kf (b - a + 1)) a b (effB sel kf t 0 ((N : Int) - 1) 1 a b) op := by
  cases op with
  | add lv rv x =>
    obtain ⟨h1, h2, h3⟩ := hr
    obtain ⟨i1, _, i3⟩ := change_exact hS (tagW_add x fun nd => hP.add nd x) N 0 _ 1 (by omega) fuel t s (le_refl 1) hF h2
      (by omega) (by omega) e
    exact ⟨i1, i3⟩
  | mul lv rv x =>
    obtain ⟨h1, h2, h3⟩ := hr
    obtain ⟨i1, _, i3⟩ := change_exact hS (tagW_mul x fun nd => hP.mul nd x) N 0 _ 1 (by omega) fuel t s (le_refl 1) hF h2
      (by omega) (by omega) e
    exact ⟨i1, i3⟩
  | max lv rv =>
    obtain ⟨h1, h2, h3⟩ := hr
    obtain ⟨⟨s', x⟩, e1, e2⟩ := Out.bind_eq_ok.1 e
    cases e2
    obtain ⟨i1, _, i3, _⟩ := query_exact hS N 0 _ 1 (by omega) fuel t s x (le_refl 1) hF h2 (by omega) (by omega) e1
    exact ⟨i1, i3⟩
  | min lv rv =>
    obtain ⟨h1, h2, h3⟩ := hr
    obtain ⟨⟨s', x⟩, e1, e2⟩ := Out.bind_eq_ok.1 e
    cases e2
    obtain ⟨i1, _, i3, _⟩ := query_exact hS N 0 _ 1 (by omega) fuel t s x (le_refl 1) hF h2 (by omega) (by omega) e1
    exact ⟨i1, i3⟩
  | sum lv rv =>
    obtain ⟨h1, h2, h3⟩ := hr
    obtain ⟨⟨s', x⟩, e1, e2⟩ := Out.bind_eq_ok.1 e
    cases e2
    obtain ⟨i1, _, i3, _⟩ := query_exact hS N 0 _ 1 (by omega) fuel t s x (le_refl 1) hF h2 (by omega) (by omega) e1
    exact ⟨i1, i3⟩

theorem runFrom_exact (hS : Sel sel kf) (hP : Plain sel) {N fuel : Nat} (hF : Fits (4 * N) 0 ((N : Int) - 1) 1) :
    ∀ (ops : List (Op α)) (t : Nat → Node α) (s : Seg α), (∀ op ∈ ops, Op.InRange N op) →
      ops.foldlM (exec fuel) ⟨N, t⟩ = .ok s →
    s.size = N ∧ ∀ a b, IsBlk a b 0 ((N : Int) - 1) →
      effB sel kf s.node 0 ((N : Int) - 1) 1 a b =
        kept (kf (b - a + 1)) ops a b (effB sel kf t 0 ((N : Int) - 1) 1 a b)
  | [], t, s, _, e => by cases e; exact ⟨rfl, fun _ _ _ => rfl⟩
  | op :: ops, t, s, hr, e => by
    rw [List.foldlM_cons] at e
    obtain ⟨⟨n1, t1⟩, e1, e2⟩ := Out.bind_eq_ok.1 e
    obtain ⟨i1, i2⟩ := exec_exact hS hP hF t _ op (hr op (by simp)) e1
    dsimp only at i1 i2
    subst i1
    obtain ⟨j1, j2⟩ := runFrom_exact hS hP hF ops t1 s (fun o ho => hr o (by simp [ho])) e2
    exact ⟨j1, fun a b hab => by rw [j2 a b hab, i2 a b hab]; rfl⟩

omit [CommRing α] [LinearOrder α] [IsStrictOrderedRing α] in
theorem ans_blk {comb : α → α → α} {f : Int → Int → α} {a b l r : Int} (h : IsBlk a b l r) :
    ans comb f a b l r = f a b := by
  induction h with
  | self _ => rw [ans, if_pos (.inl ⟨le_refl _, le_refl _⟩)]
  | left h1 h2 ih =>
    have := h2.sub
    rw [ans, if_neg (by omega), if_pos (by omega), ih]
  | right h1 h2 ih =>
    have := h2.sub
    rw [ans, if_neg (by omega), if_neg (by omega), if_pos (by omega), ih]

theorem cut_nil {a b l r : Int} (hlr : l ≤ r) (h : r < a ∨ b < l) : cut a b l r = [] := by
  rw [cut, if_neg (by omega), if_neg (by omega)]

theorem cut_blk {a b : Int} : ∀ (l r : Int) (_ : Nat), l ≤ r → ∀ p ∈ cut a b l r, IsBlk p.1 p.2 l r := by
  refine seg_ind (P := fun l r _ => ∀ p ∈ cut a b l r, IsBlk p.1 p.2 l r) ?_ ?_
  · intro l _ p hp
    rw [cut] at hp
    split at hp
    · simp only [List.mem_singleton] at hp; subst hp; exact .self (le_refl l)
    · rw [if_neg (by omega)] at hp; simp at hp
  · intro l r _ hlr hL hR p hp
    rw [cut] at hp
    split at hp
    · simp only [List.mem_singleton] at hp; subst hp; exact .self hlr.le
    · split at hp
      · rcases List.mem_append.1 hp with h | h
        · exact .left hlr (hL p h)
        · exact .right hlr (hR p h)
      · simp at hp

omit [CommRing α] [LinearOrder α] [IsStrictOrderedRing α] in
/-- `ans` folds the blocks of `cut`: a predicate which passes through `comb` holds of the blocks and the answer. -/
theorem ans_cut {comb : α → α → α} {f : Int → Int → α} {R : List (Int × Int) → α → Prop}
    (h1 : ∀ l r, R [(l, r)] (f l r)) (h2 : ∀ c d x y, R c x → R d y → R (c ++ d) (comb x y)) {lv rv : Int} (hv : lv ≤ rv) :
    ∀ (l r : Int) (_ : Nat), l ≤ r → lv ≤ r → l ≤ rv → R (cut lv rv l r) (ans comb f lv rv l r) := by
  refine seg_ind (P := fun l r _ => lv ≤ r → l ≤ rv → R (cut lv rv l r) (ans comb f lv rv l r)) ?_ ?_
  · intro l _ g1 g2
    rw [cut, ans, if_pos ⟨g1, g2⟩, if_pos (.inl ⟨g1, g2⟩)]
    exact h1 l l
  · intro l r _ hlr hL hR g1 g2
    by_cases hc : lv ≤ l ∧ r ≤ rv
    · rw [cut, ans, if_pos hc, if_pos (.inl hc)]
      exact h1 l r
    · rw [cut, if_neg hc, if_pos ⟨hlr, g1, g2⟩, ans, if_neg (by omega)]
      by_cases hm : rv ≤ (l + r) / 2
      · rw [if_pos hm, cut_nil (l := (l + r) / 2 + 1) (by omega) (by omega), List.append_nil]
        exact hL (by omega) g2
      · by_cases hm' : lv > (l + r) / 2
        · rw [if_neg hm, if_pos hm', cut_nil (l := l) (by omega) (by omega), List.nil_append]
          exact hR g1 (by omega)
        · rw [if_neg hm, if_neg hm']
          exact h2 _ _ _ _ (hL (by omega) g2) (hR g1 (by omega))

/-- A query after a history, from the aggregates of the blocks of the built tree. -/
theorem run_exact (hS : Sel sel kf) (hP : Plain sel) {comb : α → α → α} {N fuel : Nat}
    (hF : Fits (4 * N) 0 ((N : Int) - 1) 1) {ops : List (Op α)} {t0 : Nat → Node α} {s s' : Seg α} {x : α} {a b : Int}
    (hr : ∀ op ∈ ops, Op.InRange N op) (e : ops.foldlM (exec fuel) ⟨N, t0⟩ = .ok s) (hab : InRange N a b)
    (q : query sel comb a b fuel 0 ((s.size : Int) - 1) 1 s = .ok (s', x)) {ini : Int → Int → α}
    (hi : ∀ l r, InRange N l r → ∃ s', query sel comb l r fuel 0 ((N : Int) - 1) 1 ⟨N, t0⟩ = .ok (s', ini l r)) :
    x = ans comb (fun l r => kept (kf (r - l + 1)) ops l r (ini l r)) a b 0 ((N : Int) - 1) := by
  obtain ⟨g1, g2, g3⟩ := hab
  obtain ⟨i1, i2⟩ := runFrom_exact hS hP hF ops t0 s hr e
  obtain ⟨n, t⟩ := s
  dsimp only at i1 i2 q
  subst i1
  obtain ⟨_, _, _, j⟩ := query_exact hS n 0 _ 1 (by omega) fuel t s' x (le_refl 1) hF g2 (by omega) (by omega) q
  rw [j rfl]
  refine ans_congr 0 _ 0 (by omega) fun l r hlr => ?_
  have hs := hlr.sub
  obtain ⟨s'', e''⟩ := hi l r ⟨by omega, by omega, by omega⟩
  obtain ⟨_, _, _, k⟩ := query_exact hS n 0 _ 1 (by omega) fuel t0 s'' _ (le_refl 1) hF hs.2.1 (by omega) (by omega) e''
  rw [i2 l r hlr, k rfl, ans_blk hlr]

end
end SegmentTree
