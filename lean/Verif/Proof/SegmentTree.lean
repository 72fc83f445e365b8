import Verif.Spec.SegmentTree
import Mathlib.Algebra.BigOperators.Group.Finset.Basic
import Mathlib.Algebra.BigOperators.Ring.Finset
import Mathlib.Order.Interval.Finset.Nat
import Mathlib.Data.Int.Interval
import Mathlib.Tactic.Ring
import Mathlib.Tactic.Linarith
import Mathlib.Algebra.Order.Ring.Int

/-! # Lemmas about segment trees -/

namespace SegmentTree
open Cpp

set_option linter.unusedSectionVars false
set_option linter.unusedSimpArgs false

variable {α : Type} [CommRing α] [LinearOrder α] [IsStrictOrderedRing α]

/-! ### intervals and node numbers -/

theorem seg_ind {P : Int → Int → Nat → Prop} (h0 : ∀ l o, P l l o)
    (h1 : ∀ l r o, l < r → P l ((l + r) / 2) (2 * o) → P ((l + r) / 2 + 1) r (2 * o + 1) → P l r o) :
    ∀ l r o, l ≤ r → P l r o := by
  have key : ∀ (n : Nat) (l r : Int) (o : Nat), (r - l).toNat = n → l ≤ r → P l r o := by
    intro n
    induction n using Nat.strongRecOn with
    | _ n ih =>
      intro l r o hn hlr
      by_cases h : l = r
      · subst h; exact h0 l o
      · exact h1 l r o (by omega) (ih _ (by omega) l _ _ rfl (by omega)) (ih _ (by omega) _ r _ rfl (by omega))
  exact fun l r o => key _ l r o rfl

/-- `x` is `o` or below it in the heap numbering. -/
def Desc (o x : Nat) : Prop := ∃ d, x / 2 ^ d = o

theorem desc_self (o : Nat) : Desc o o := ⟨0, by simp⟩

theorem desc_of_left {o x : Nat} (h : Desc (2 * o) x) : Desc o x := by
  obtain ⟨d, h⟩ := h
  exact ⟨d + 1, by rw [pow_succ, ← Nat.div_div_eq_div_mul, h]; omega⟩

theorem desc_of_right {o x : Nat} (h : Desc (2 * o + 1) x) : Desc o x := by
  obtain ⟨d, h⟩ := h
  exact ⟨d + 1, by rw [pow_succ, ← Nat.div_div_eq_div_mul, h]; omega⟩

theorem desc_le {o x : Nat} (h : Desc o x) : o ≤ x := by
  obtain ⟨d, h⟩ := h; rw [← h]; exact Nat.div_le_self _ _

theorem desc_disjoint {o x : Nat} (ho : 1 ≤ o) (h1 : Desc (2 * o) x) (h2 : Desc (2 * o + 1) x) : False := by
  obtain ⟨d, h1⟩ := h1
  obtain ⟨e, h2⟩ := h2
  rcases Nat.lt_trichotomy d e with h | h | h
  · obtain ⟨k, rfl⟩ : ∃ k, e = d + (k + 1) := ⟨e - d - 1, by omega⟩
    rw [pow_add, ← Nat.div_div_eq_div_mul, h1] at h2
    have : 2 * o / 2 ^ (k + 1) ≤ 2 * o := Nat.div_le_self _ _
    omega
  · subst h; omega
  · obtain ⟨k, rfl⟩ : ∃ k, d = e + (k + 1) := ⟨d - e - 1, by omega⟩
    rw [pow_add, ← Nat.div_div_eq_div_mul, h2] at h1
    have h3 : (2 * o + 1) / 2 ^ (k + 1) ≤ (2 * o + 1) / 2 := Nat.div_le_div_left (by
      rw [pow_succ]; have := Nat.two_pow_pos k; omega) (by omega)
    omega

/-! ### the values a tree state denotes -/

/-- The pending flags of a node as a function. -/
def app (nd : Node α) (x : α) : α :=
  (if nd.hasMul then x * nd.mul else x) + (if nd.hasAdd then nd.add else 0)

/-- The current value of position `p`, below the ancestors of `o`. -/
def eff (t : Nat → Node α) (l r : Int) (o : Nat) (p : Int) : α :=
  app (t o) (if l < r then
    (if p ≤ (l + r) / 2 then eff t l ((l + r) / 2) (2 * o) p else eff t ((l + r) / 2 + 1) r (2 * o + 1) p)
    else (t o).sm)
termination_by (r - l).toNat
decreasing_by all_goals omega

/-- The same without the flags of `o` itself. -/
def below (t : Nat → Node α) (l r : Int) (o : Nat) (p : Int) : α :=
  if l < r then
    (if p ≤ (l + r) / 2 then eff t l ((l + r) / 2) (2 * o) p else eff t ((l + r) / 2 + 1) r (2 * o + 1) p)
  else (t o).sm

omit [LinearOrder α] [IsStrictOrderedRing α] in
theorem eff_eq (t : Nat → Node α) (l r : Int) (o : Nat) (p : Int) :
    eff t l r o p = app (t o) (below t l r o p) := by rw [eff]; rfl

omit [LinearOrder α] [IsStrictOrderedRing α] in
theorem eff_congr {t t' : Nat → Node α} : ∀ (l r : Int) (o : Nat), l ≤ r → (∀ x, Desc o x → t' x = t x) →
    ∀ p, eff t' l r o p = eff t l r o p := by
  refine seg_ind (P := fun l r o => (∀ x, Desc o x → t' x = t x) → ∀ p, eff t' l r o p = eff t l r o p) ?_ ?_
  · intro l o h p
    rw [eff_eq, eff_eq, h o (desc_self o)]; simp [below, h o (desc_self o)]
  · intro l r o hlr hL hR h p
    rw [eff_eq, eff_eq, below, below, h o (desc_self o), if_pos hlr, if_pos hlr, hL (fun x hx => h x (desc_of_left hx)),
      hR (fun x hx => h x (desc_of_right hx))]

omit [LinearOrder α] [IsStrictOrderedRing α] in
/-- `below` needs only the strict descendants and, at a leaf, the stored value. -/
theorem below_congr {t t' : Nat → Node α} {l r : Int} {o : Nat} (_ : l ≤ r)
    (h : ∀ x, Desc (2 * o) x ∨ Desc (2 * o + 1) x → t' x = t x) (hs : (t' o).sm = (t o).sm) (p : Int) :
    below t' l r o p = below t l r o p := by
  unfold below
  by_cases hl : l < r
  · rw [if_pos hl, if_pos hl, eff_congr _ _ _ (by omega) (fun x hx => h x (.inl hx)),
      eff_congr _ _ _ (by omega) (fun x hx => h x (.inr hx))]
  · rw [if_neg hl, if_neg hl, hs]

/-- Stored minimum: attained and a lower bound. -/
def IsMinOn (l r : Int) (f : Int → α) (x : α) : Prop :=
  (∃ p, l ≤ p ∧ p ≤ r ∧ x = f p) ∧ ∀ p, l ≤ p → p ≤ r → x ≤ f p

/-- Stored maximum: attained and an upper bound. -/
def IsMaxOn (l r : Int) (f : Int → α) (x : α) : Prop :=
  (∃ p, l ≤ p ∧ p ≤ r ∧ x = f p) ∧ ∀ p, l ≤ p → p ≤ r → f p ≤ x

/-- What the node stores is right (up to its own flags). `nn`: minima and maxima too. -/
structure Own (nn : Prop) (t : Nat → Node α) (l r : Int) (o : Nat) : Prop where
  sum : (t o).sm = ∑ p ∈ Finset.Icc l r, below t l r o p
  min : nn → IsMinOn l r (below t l r o) (t o).mn
  max : nn → IsMaxOn l r (below t l r o) (t o).mx

/-- Pending factors are nonnegative (asked for only if `nn`). -/
def Pos (nn : Prop) (t : Nat → Node α) : Prop := nn → ∀ x, (t x).hasMul = true → 0 ≤ (t x).mul

/-- Every node inside `[a, b]` is right. -/
def Good (nn : Prop) (a b : Int) (t : Nat → Node α) (l r : Int) (o : Nat) : Prop :=
  (a ≤ l → r ≤ b → Own nn t l r o) ∧
  (if l < r then Good nn a b t l ((l + r) / 2) (2 * o) ∧ Good nn a b t ((l + r) / 2 + 1) r (2 * o + 1) else True)
termination_by (r - l).toNat
decreasing_by all_goals omega

/-- Leaves store the same three values. -/
def Leafy (t : Nat → Node α) (l r : Int) (o : Nat) : Prop :=
  if l < r then Leafy t l ((l + r) / 2) (2 * o) ∧ Leafy t ((l + r) / 2 + 1) r (2 * o + 1)
  else (t o).mn = (t o).sm ∧ (t o).mx = (t o).sm
termination_by (r - l).toNat
decreasing_by all_goals omega

/-- All nodes of the subtree, and the children of its leaves, are within `N` entries. -/
def Fits (N : Nat) (l r : Int) (o : Nat) : Prop :=
  if l < r then o < N ∧ Fits N l ((l + r) / 2) (2 * o) ∧ Fits N ((l + r) / 2 + 1) r (2 * o + 1)
  else 2 * o + 1 < N
termination_by (r - l).toNat
decreasing_by all_goals omega

/-- All nodes of the subtree are within `N` entries. -/
def Room (N : Nat) (l r : Int) (o : Nat) : Prop :=
  o < N ∧ (if l < r then Room N l ((l + r) / 2) (2 * o) ∧ Room N ((l + r) / 2 + 1) r (2 * o + 1) else True)
termination_by (r - l).toNat
decreasing_by all_goals omega

theorem fits_lt {N : Nat} {l r : Int} {o : Nat} (h : Fits N l r o) : o < N := by
  rw [Fits] at h
  split at h
  · exact h.1
  · omega

theorem fits_child {N : Nat} {l r : Int} {o : Nat} (h : Fits N l r o) : 2 * o + 1 < N := by
  rw [Fits] at h
  split at h
  · exact fits_lt h.2.2
  · exact h

theorem own_congr {nn : Prop} {t t' : Nat → Node α} {l r : Int} {o : Nat} (hlr : l ≤ r)
    (h : ∀ x, Desc (2 * o) x ∨ Desc (2 * o + 1) x → t' x = t x)
    (hs : (t' o).sm = (t o).sm) (hm : (t' o).mn = (t o).mn) (hx : (t' o).mx = (t o).mx)
    (H : Own nn t l r o) : Own nn t' l r o := by
  have hb : below t' l r o = below t l r o := funext fun p => below_congr hlr h hs p
  exact ⟨by rw [hs, hb]; exact H.sum, fun q => by rw [hm, hb]; exact H.min q,
    fun q => by rw [hx, hb]; exact H.max q⟩

theorem good_congr {nn : Prop} {a b : Int} {t t' : Nat → Node α} : ∀ (l r : Int) (o : Nat), l ≤ r →
    (∀ x, Desc o x → t' x = t x) → Good nn a b t l r o → Good nn a b t' l r o := by
  refine seg_ind (P := fun l r o => (∀ x, Desc o x → t' x = t x) → Good nn a b t l r o → Good nn a b t' l r o) ?_ ?_
  · intro l o h hG
    rw [Good, if_neg (by omega)] at hG ⊢
    have ho := h o (desc_self o)
    exact ⟨fun h1 h2 => own_congr (le_refl _) (fun x hx => h x (hx.elim desc_of_left desc_of_right))
      (by rw [ho]) (by rw [ho]) (by rw [ho]) (hG.1 h1 h2), trivial⟩
  · intro l r o hlr hL hR h hG
    rw [Good, if_pos hlr] at hG ⊢
    have ho := h o (desc_self o)
    exact ⟨fun h1 h2 => own_congr hlr.le (fun x hx => h x (hx.elim desc_of_left desc_of_right))
      (by rw [ho]) (by rw [ho]) (by rw [ho]) (hG.1 h1 h2),
      hL (fun x hx => h x (desc_of_left hx)) hG.2.1, hR (fun x hx => h x (desc_of_right hx)) hG.2.2⟩

omit [CommRing α] [LinearOrder α] [IsStrictOrderedRing α] in
theorem leafy_congr {t t' : Nat → Node α} : ∀ (l r : Int) (o : Nat), l ≤ r →
    (∀ x, Desc o x → t' x = t x) → Leafy t l r o → Leafy t' l r o := by
  refine seg_ind (P := fun l r o => (∀ x, Desc o x → t' x = t x) → Leafy t l r o → Leafy t' l r o) ?_ ?_
  · intro l o h hG
    rw [Leafy, if_neg (by omega)] at hG ⊢
    rw [h o (desc_self o)]; exact hG
  · intro l r o hlr hL hR h hG
    rw [Leafy, if_pos hlr] at hG ⊢
    exact ⟨hL (fun x hx => h x (desc_of_left hx)) hG.1, hR (fun x hx => h x (desc_of_right hx)) hG.2⟩

/-! ### `update` -/

/-- The effect of `update` on the node itself. -/
def settle (nd : Node α) (len : Int) : Node α :=
  { nd with
    hasMul := false, hasAdd := false
    mn := app nd nd.mn, mx := app nd nd.mx
    sm := (if nd.hasMul then nd.sm * nd.mul else nd.sm) + (if nd.hasAdd then nd.add * (len : α) else 0) }

/-- The effect of `update` on a child. -/
def pushed (nd c : Node α) : Node α :=
  let c := if nd.hasMul then pushMul nd.mul c else c
  if nd.hasAdd then pushAdd nd.add c else c

/-- The vectors after `update`. -/
def upd (t : Nat → Node α) (o : Nat) (l r : Int) : Nat → Node α := fun x =>
  if x = o then settle (t o) (r - l + 1)
  else if x = 2 * o ∨ x = 2 * o + 1 then pushed (t o) (t x) else t x

omit [CommRing α] [LinearOrder α] [IsStrictOrderedRing α] in
theorem at_ok {t : Seg α} {o : Nat} (h : o < 4 * t.size) : t.at o = .ok (t.node o) := by simp [Seg.at, h]

omit [CommRing α] [LinearOrder α] [IsStrictOrderedRing α] in
theorem put_ok {t : Seg α} {o : Nat} (nd : Node α) (h : o < 4 * t.size) :
    t.put o nd = .ok ⟨t.size, fun x => if x = o then nd else t.node x⟩ := by simp [Seg.put, h]

omit [LinearOrder α] [IsStrictOrderedRing α] in
theorem update_ok {t : Seg α} {o : Nat} {l r : Int} (ho : 1 ≤ o) (h : 2 * o + 1 < 4 * t.size) :
    update t o l r = .ok ⟨t.size, upd t.node o l r⟩ := by
  have h0 : o < 4 * t.size := by omega
  have h1 : 2 * o < 4 * t.size := by omega
  have n1 : ¬ 2 * o = o := by omega
  have n2 : ¬ 2 * o + 1 = o := by omega
  have n3 : ¬ 2 * o + 1 = 2 * o := by omega
  have n4 : ¬ o = 2 * o := by omega
  have n5 : ¬ o = 2 * o + 1 := by omega
  have n6 : ¬ 2 * o = 2 * o + 1 := by omega
  obtain ⟨n, node⟩ := t
  unfold update
  rw [at_ok h0, Out.ok_bind]
  dsimp only at h h0 h1 ⊢
  cases hm : (node o).hasMul
  · simp only [Bool.false_eq_true, if_false, Out.ok_bind]
    rw [at_ok (t := ⟨n, node⟩) h0, Out.ok_bind]
    dsimp only
    cases ha : (node o).hasAdd
    · simp only [Bool.false_eq_true, if_false]
      congr 2
      funext x
      unfold upd
      by_cases e : x = o
      · subst e
        rw [if_pos rfl]
        cases hx : node x
        rw [hx] at hm ha
        simp only at hm ha
        subst hm ha
        simp [settle, app]
      · rw [if_neg e]
        split
        · simp [pushed, hm, ha]
        · rfl
    · simp only [if_true]
      rw [put_ok (t := ⟨n, node⟩) _ h0, Out.ok_bind, at_ok h1, Out.ok_bind, put_ok _ h1, Out.ok_bind, at_ok h,
        Out.ok_bind, put_ok _ h]
      congr 2
      funext x
      unfold upd
      by_cases e : x = o
      · subst e
        simp [n4, n5, settle, app, hm, ha]
      · by_cases e1 : x = 2 * o
        · subst e1; simp [n1, n6, pushed, hm, ha]
        · by_cases e2 : x = 2 * o + 1
          · subst e2; simp [n2, n3, pushed, hm, ha]
          · simp [e, e1, e2]
  · simp only [if_true]
    rw [put_ok (t := ⟨n, node⟩) _ h0, Out.ok_bind, at_ok h1, Out.ok_bind, put_ok _ h1, Out.ok_bind, at_ok h,
      Out.ok_bind, put_ok _ h, Out.ok_bind, at_ok h0, Out.ok_bind]
    simp only [n4, n5, if_false, if_true]
    cases ha : (node o).hasAdd
    · simp only [Bool.false_eq_true, if_false]
      congr 2
      funext x
      unfold upd
      by_cases e : x = o
      · subst e
        simp [n4, n5, settle, app, hm, ha]
      · by_cases e1 : x = 2 * o
        · subst e1; simp [n1, n6, pushed, hm, ha]
        · by_cases e2 : x = 2 * o + 1
          · subst e2; simp [n2, n3, pushed, hm, ha]
          · simp [e, e1, e2]
    · simp only [if_true]
      rw [put_ok _ h0, Out.ok_bind, at_ok h1, Out.ok_bind, put_ok _ h1, Out.ok_bind, at_ok h,
        Out.ok_bind, put_ok _ h]
      congr 2
      funext x
      unfold upd
      by_cases e : x = o
      · subst e
        simp [n4, n5, settle, app, hm, ha]
      · by_cases e1 : x = 2 * o
        · subst e1; simp [n1, n6, pushed, hm, ha]
        · by_cases e2 : x = 2 * o + 1
          · subst e2; simp [n2, n3, pushed, hm, ha]
          · simp [e, e1, e2]

omit [LinearOrder α] [IsStrictOrderedRing α] in
theorem app_pushed (nd c : Node α) (x : α) : app (pushed nd c) x = app nd (app c x) := by
  unfold app pushed pushAdd pushMul
  cases nd.hasMul <;> cases nd.hasAdd <;> cases hc : c.hasMul <;> cases hd : c.hasAdd <;> simp [hc, hd] <;> ring

omit [LinearOrder α] [IsStrictOrderedRing α] in
theorem pushed_vals (nd c : Node α) : (pushed nd c).sm = c.sm ∧ (pushed nd c).mn = c.mn ∧ (pushed nd c).mx = c.mx := by
  unfold pushed pushAdd pushMul
  cases nd.hasMul <;> cases nd.hasAdd <;> simp

omit [LinearOrder α] [IsStrictOrderedRing α] in
theorem app_settle (nd : Node α) (len : Int) (x : α) : app (settle nd len) x = x := by simp [app, settle]

omit [LinearOrder α] [IsStrictOrderedRing α] in
/-- below node `c`, replacing only the flags of `c` -/
theorem eff_flags {t t' : Nat → Node α} {l r : Int} {c : Nat} (hlr : l ≤ r)
    (h : ∀ x, Desc (2 * c) x ∨ Desc (2 * c + 1) x → t' x = t x) (hs : (t' c).sm = (t c).sm) (p : Int) :
    eff t' l r c p = app (t' c) (below t l r c p) := by
  rw [eff_eq, below_congr hlr h hs]

theorem desc_strict {c x : Nat} (hc : 1 ≤ c) (h : Desc (2 * c) x ∨ Desc (2 * c + 1) x) : 2 * c ≤ x ∧ x ≠ c := by
  rcases h with h | h
  · have := desc_le h; omega
  · have := desc_le h; omega

/-- nodes strictly below a child of `o` are left alone by `update` -/
theorem upd_below (t : Nat → Node α) {o c x : Nat} (l r : Int) (ho : 1 ≤ o) (hc : c = 2 * o ∨ c = 2 * o + 1)
    (hx : Desc (2 * c) x ∨ Desc (2 * c + 1) x) : upd t o l r x = t x := by
  have h1 : 2 * c ≤ x := (desc_strict (by omega) hx).1
  unfold upd
  rw [if_neg (by omega), if_neg (by omega)]

theorem upd_child (t : Nat → Node α) {o c : Nat} (l r : Int) (ho : 1 ≤ o) (hc : c = 2 * o ∨ c = 2 * o + 1) :
    upd t o l r c = pushed (t o) (t c) := by
  unfold upd
  rw [if_neg (by omega), if_pos hc]

theorem upd_self (t : Nat → Node α) (o : Nat) (l r : Int) : upd t o l r o = settle (t o) (r - l + 1) := by
  unfold upd; rw [if_pos rfl]

theorem upd_other (t : Nat → Node α) {o x : Nat} (l r : Int) (h : ¬ Desc o x) : upd t o l r x = t x := by
  unfold upd
  rw [if_neg (fun e : x = o => h (e ▸ desc_self o)), if_neg]
  rintro (e | e)
  · exact h (desc_of_left (e ▸ desc_self _))
  · exact h (desc_of_right (e ▸ desc_self _))

theorem upd_eff_child (t : Nat → Node α) {o c : Nat} {l r l' r' : Int} (ho : 1 ≤ o)
    (hc : c = 2 * o ∨ c = 2 * o + 1) (h : l' ≤ r') (p : Int) :
    eff (upd t o l r) l' r' c p = app (t o) (eff t l' r' c p) := by
  rw [eff_flags h (fun x hx => upd_below t l r ho hc hx) (by rw [upd_child t l r ho hc]; exact (pushed_vals _ _).1),
    upd_child t l r ho hc, app_pushed, eff_eq]

theorem upd_below_eq (t : Nat → Node α) {o : Nat} {l r : Int} (ho : 1 ≤ o) (hlr : l ≤ r) (p : Int) :
    below (upd t o l r) l r o p = eff t l r o p := by
  rw [eff_eq]
  unfold below
  by_cases h : l < r
  · rw [if_pos h, if_pos h, upd_eff_child t ho (.inl rfl) (by omega), upd_eff_child t ho (.inr rfl) (by omega)]
    split <;> rfl
  · rw [if_neg h, if_neg h, upd_self]
    have : r - l + 1 = 1 := by omega
    simp [settle, app, this]

theorem upd_eff (t : Nat → Node α) {o : Nat} {l r : Int} (ho : 1 ≤ o) (hlr : l ≤ r) (p : Int) :
    eff (upd t o l r) l r o p = eff t l r o p := by
  rw [eff_eq, upd_self, app_settle, upd_below_eq t ho hlr]

theorem app_mono {nd : Node α} (h : nd.hasMul = true → 0 ≤ nd.mul) {x y : α} (hxy : x ≤ y) : app nd x ≤ app nd y := by
  unfold app
  cases hm : nd.hasMul
  · simpa using hxy
  · simpa using mul_le_mul_of_nonneg_right hxy (h hm)

theorem upd_own {nn : Prop} {t : Nat → Node α} {o : Nat} {l r : Int} (ho : 1 ≤ o) (hlr : l ≤ r)
    (hp : Pos nn t) (h : Own nn t l r o) : Own nn (upd t o l r) l r o := by
  have hb : below (upd t o l r) l r o = fun p => app (t o) (below t l r o p) :=
    funext fun p => by rw [upd_below_eq t ho hlr, eff_eq]
  refine ⟨?_, fun q => ?_, fun q => ?_⟩
  · rw [hb, upd_self]
    have hcard : ((Finset.Icc l r).card : α) = ((r - l + 1 : Int) : α) := by
      rw [Int.card_Icc, ← Int.cast_natCast, Int.toNat_of_nonneg (by omega)]
      congr 1; ring
    simp only [settle, app]
    rw [Finset.sum_add_distrib, Finset.sum_const, nsmul_eq_mul, hcard, h.sum]
    cases (t o).hasMul <;> cases (t o).hasAdd <;> simp [← Finset.sum_mul, mul_comm _ (t o).add]
  · obtain ⟨⟨p, h1, h2, h3⟩, h4⟩ := h.min q
    rw [hb, upd_self]
    exact ⟨⟨p, h1, h2, by simp only [settle]; rw [h3]⟩, fun p h1 h2 => app_mono (hp q o) (h4 p h1 h2)⟩
  · obtain ⟨⟨p, h1, h2, h3⟩, h4⟩ := h.max q
    rw [hb, upd_self]
    exact ⟨⟨p, h1, h2, by simp only [settle]; rw [h3]⟩, fun p h1 h2 => app_mono (hp q o) (h4 p h1 h2)⟩

theorem pushed_nonneg {nd c : Node α} (h1 : nd.hasMul = true → 0 ≤ nd.mul) (h2 : c.hasMul = true → 0 ≤ c.mul)
    (h : (pushed nd c).hasMul = true) : 0 ≤ (pushed nd c).mul := by
  unfold pushed pushAdd pushMul at h ⊢
  cases ha : nd.hasMul <;> cases hb : nd.hasAdd <;> cases hc : c.hasMul <;> simp_all
  · exact mul_nonneg h2 h1
  · exact mul_nonneg h2 h1

theorem upd_pos {nn : Prop} {t : Nat → Node α} (o : Nat) (l r : Int) (h : Pos nn t) : Pos nn (upd t o l r) := by
  intro q x hx
  unfold upd at hx ⊢
  split
  · rename_i e; rw [if_pos e] at hx; simp [settle] at hx
  · rename_i e
    rw [if_neg e] at hx
    split
    · rename_i e'; rw [if_pos e'] at hx; exact pushed_nonneg (h q o) (h q x) hx
    · rename_i e'; rw [if_neg e'] at hx; exact h q x hx

/-- `t'` denotes the same values as `t` on the subtree and is as good as `t`; the rest is untouched. -/
structure Keeps (t t' : Nat → Node α) (l r : Int) (o : Nat) : Prop where
  frame : ∀ x, ¬ Desc o x → t' x = t x
  eff : ∀ p, eff t' l r o p = eff t l r o p
  leafy : Leafy t l r o → Leafy t' l r o
  pos : ∀ nn, Pos nn t → Pos nn t'
  good : ∀ nn a b, Pos nn t → Good nn a b t l r o → Good nn a b t' l r o

theorem Keeps.trans {t t' t'' : Nat → Node α} {l r : Int} {o : Nat} (h : Keeps t t' l r o)
    (h' : Keeps t' t'' l r o) : Keeps t t'' l r o :=
  ⟨fun x hx => (h'.frame x hx).trans (h.frame x hx), fun p => (h'.eff p).trans (h.eff p),
    fun q => h'.leafy (h.leafy q), fun nn q => h'.pos nn (h.pos nn q),
    fun nn a b q g => h'.good nn a b (h.pos nn q) (h.good nn a b q g)⟩

theorem not_desc_left {o : Nat} (ho : 1 ≤ o) : ¬ Desc (2 * o) o := fun h => by have := desc_le h; omega
theorem not_desc_right {o : Nat} : ¬ Desc (2 * o + 1) o := fun h => by have := desc_le h; omega

/-- values equal at every position, node itself untouched -/
theorem own_of_below {nn : Prop} {t t' : Nat → Node α} {l r : Int} {o : Nat} (ho : t' o = t o)
    (hb : ∀ p, below t' l r o p = below t l r o p) (H : Own nn t l r o) : Own nn t' l r o := by
  have hb' : below t' l r o = below t l r o := funext hb
  exact ⟨by rw [ho, hb']; exact H.sum, fun q => by rw [ho, hb']; exact H.min q,
    fun q => by rw [ho, hb']; exact H.max q⟩

theorem Keeps.left {t t' : Nat → Node α} {l r : Int} {o : Nat} (ho : 1 ≤ o) (hlr : l < r)
    (h : Keeps t t' l ((l + r) / 2) (2 * o)) : Keeps t t' l r o := by
  have h0 : t' o = t o := h.frame o (not_desc_left ho)
  have hR : ∀ x, Desc (2 * o + 1) x → t' x = t x := fun x hx => h.frame x fun hx' => desc_disjoint ho hx' hx
  have hb : ∀ p, below t' l r o p = below t l r o p := by
    intro p
    unfold below
    rw [if_pos hlr, if_pos hlr, h.eff, eff_congr _ _ _ (by omega) hR]
  refine ⟨fun x hx => h.frame x fun q => hx (desc_of_left q), fun p => ?_, fun q => ?_, h.pos, fun nn a b q g => ?_⟩
  · rw [eff_eq, eff_eq, h0, hb]
  · rw [Leafy, if_pos hlr] at q ⊢
    exact ⟨h.leafy q.1, leafy_congr _ _ _ (by omega) hR q.2⟩
  · rw [Good, if_pos hlr] at g ⊢
    exact ⟨fun h1 h2 => own_of_below h0 hb (g.1 h1 h2), h.good nn a b q g.2.1,
      good_congr _ _ _ (by omega) hR g.2.2⟩

theorem Keeps.right {t t' : Nat → Node α} {l r : Int} {o : Nat} (ho : 1 ≤ o) (hlr : l < r)
    (h : Keeps t t' ((l + r) / 2 + 1) r (2 * o + 1)) : Keeps t t' l r o := by
  have h0 : t' o = t o := h.frame o not_desc_right
  have hL : ∀ x, Desc (2 * o) x → t' x = t x := fun x hx => h.frame x fun hx' => desc_disjoint ho hx hx'
  have hb : ∀ p, below t' l r o p = below t l r o p := by
    intro p
    unfold below
    rw [if_pos hlr, if_pos hlr, h.eff, eff_congr _ _ _ (by omega) hL]
  refine ⟨fun x hx => h.frame x fun q => hx (desc_of_right q), fun p => ?_, fun q => ?_, h.pos, fun nn a b q g => ?_⟩
  · rw [eff_eq, eff_eq, h0, hb]
  · rw [Leafy, if_pos hlr] at q ⊢
    exact ⟨leafy_congr _ _ _ (by omega) hL q.1, h.leafy q.2⟩
  · rw [Good, if_pos hlr] at g ⊢
    exact ⟨fun h1 h2 => own_of_below h0 hb (g.1 h1 h2), good_congr _ _ _ (by omega) hL g.2.1,
      h.good nn a b q g.2.2⟩

/-- changing only the flags of the top node keeps leaves and goodness -/
theorem leafy_flags {t t' : Nat → Node α} {l r : Int} {c : Nat} (_ : l ≤ r)
    (h : ∀ x, Desc (2 * c) x ∨ Desc (2 * c + 1) x → t' x = t x)
    (hs : (t' c).sm = (t c).sm) (hm : (t' c).mn = (t c).mn) (hx : (t' c).mx = (t c).mx)
    (H : Leafy t l r c) : Leafy t' l r c := by
  rw [Leafy] at H ⊢
  split
  · rename_i q; rw [if_pos q] at H
    exact ⟨leafy_congr _ _ _ (by omega) (fun x hx => h x (.inl hx)) H.1,
      leafy_congr _ _ _ (by omega) (fun x hx => h x (.inr hx)) H.2⟩
  · rename_i q; rw [if_neg q] at H; rw [hs, hm, hx]; exact H

theorem good_flags {nn : Prop} {a b : Int} {t t' : Nat → Node α} {l r : Int} {c : Nat} (hlr : l ≤ r)
    (h : ∀ x, Desc (2 * c) x ∨ Desc (2 * c + 1) x → t' x = t x)
    (hs : (t' c).sm = (t c).sm) (hm : (t' c).mn = (t c).mn) (hx : (t' c).mx = (t c).mx)
    (H : Good nn a b t l r c) : Good nn a b t' l r c := by
  rw [Good] at H ⊢
  refine ⟨fun h1 h2 => own_congr hlr h hs hm hx (H.1 h1 h2), ?_⟩
  split
  · rename_i q; rw [if_pos q] at H
    exact ⟨good_congr _ _ _ (by omega) (fun x hx => h x (.inl hx)) H.2.1,
      good_congr _ _ _ (by omega) (fun x hx => h x (.inr hx)) H.2.2⟩
  · trivial

theorem upd_keeps (t : Nat → Node α) {o : Nat} {l r : Int} (ho : 1 ≤ o) (hlr : l ≤ r) :
    Keeps t (upd t o l r) l r o := by
  have cb := fun c hc x hx => upd_below t (o := o) (c := c) (x := x) l r ho hc hx
  have cv : ∀ c, c = 2 * o ∨ c = 2 * o + 1 →
      (upd t o l r c).sm = (t c).sm ∧ (upd t o l r c).mn = (t c).mn ∧ (upd t o l r c).mx = (t c).mx := by
    intro c hc; rw [upd_child t l r ho hc]; exact pushed_vals _ _
  have cL := cv (2 * o) (.inl rfl)
  have cR := cv (2 * o + 1) (.inr rfl)
  refine ⟨fun x hx => upd_other t l r hx, fun p => upd_eff t ho hlr p, fun q => ?_, fun nn q => upd_pos o l r q,
    fun nn a b q g => ?_⟩
  · rw [Leafy] at q ⊢
    split
    · rename_i h; rw [if_pos h] at q
      exact ⟨leafy_flags (by omega) (cb _ (.inl rfl)) cL.1 cL.2.1 cL.2.2 q.1,
        leafy_flags (by omega) (cb _ (.inr rfl)) cR.1 cR.2.1 cR.2.2 q.2⟩
    · rename_i h; rw [if_neg h] at q
      rw [upd_self]
      have : r - l + 1 = 1 := by omega
      simp [settle, app, this, q.1, q.2]
  · rw [Good] at g ⊢
    refine ⟨fun h1 h2 => upd_own ho hlr q (g.1 h1 h2), ?_⟩
    split
    · rename_i h; rw [if_pos h] at g
      exact ⟨good_flags (by omega) (cb _ (.inl rfl)) cL.1 cL.2.1 cL.2.2 g.2.1,
        good_flags (by omega) (cb _ (.inr rfl)) cR.1 cR.2.1 cR.2.2 g.2.2⟩
    · trivial

/-! ### memory -/

/-- No pending flags from `o` downwards. -/
def Clean (t : Nat → Node α) (o : Nat) : Prop := ∀ x, Desc o x → (t x).hasAdd = false ∧ (t x).hasMul = false

/-- Accesses made below `o` are within the vectors. -/
def Safe (N : Nat) (t : Nat → Node α) (l r : Int) (o : Nat) : Prop := Fits N l r o ∨ (Room N l r o ∧ Clean t o)

theorem upd_clean {t : Nat → Node α} {o : Nat} (l r : Int) (h : Clean t o) : upd t o l r = t := by
  funext x
  have h0 := h o (desc_self o)
  unfold upd
  by_cases e : x = o
  · subst e
    rw [if_pos rfl]
    cases hx : t x
    rw [hx] at h0
    simp only at h0
    obtain ⟨h1, h2⟩ := h0
    subst h1 h2
    simp [settle, app]
  · rw [if_neg e]
    split
    · simp [pushed, h0.1, h0.2]
    · rfl

theorem room_lt {N : Nat} {l r : Int} {o : Nat} (h : Room N l r o) : o < N := by rw [Room] at h; exact h.1

theorem room_of_fits {N : Nat} : ∀ (l r : Int) (o : Nat), l ≤ r → Fits N l r o → Room N l r o := by
  refine seg_ind ?_ ?_
  · intro l o h; rw [Room, if_neg (by omega)]; exact ⟨fits_lt h, trivial⟩
  · intro l r o hlr hL hR h
    rw [Room, if_pos hlr]; rw [Fits, if_pos hlr] at h
    exact ⟨h.1, hL h.2.1, hR h.2.2⟩

theorem safe_lt {N : Nat} {t : Nat → Node α} {l r : Int} {o : Nat} (h : Safe N t l r o) : o < N :=
  h.elim fits_lt (fun h => room_lt h.1)

theorem update_safe {t : Seg α} {o : Nat} {l r : Int} (ho : 1 ≤ o) (h : Safe (4 * t.size) t.node l r o) :
    update t o l r = .ok ⟨t.size, upd t.node o l r⟩ := by
  rcases h with h | ⟨h, hc⟩
  · exact update_ok ho (fits_child h)
  · rw [upd_clean l r hc]
    have h0 := hc o (desc_self o)
    unfold update
    rw [at_ok (room_lt h), Out.ok_bind]
    simp only [h0.2, Bool.false_eq_true, if_false, Out.ok_bind]
    rw [at_ok (room_lt h), Out.ok_bind]
    simp [h0.1]

theorem safe_upd {N : Nat} {t : Nat → Node α} {l r : Int} {o : Nat} (h : Safe N t l r o) :
    Safe N (upd t o l r) l r o := by
  rcases h with h | ⟨h, hc⟩
  · exact .inl h
  · exact .inr ⟨h, by rw [upd_clean l r hc]; exact hc⟩

theorem safe_left {N : Nat} {t : Nat → Node α} {l r : Int} {o : Nat} (hlr : l < r) (h : Safe N t l r o) :
    Safe N t l ((l + r) / 2) (2 * o) := by
  rcases h with h | ⟨h, hc⟩
  · rw [Fits, if_pos hlr] at h; exact .inl h.2.1
  · rw [Room, if_pos hlr] at h; exact .inr ⟨h.2.1, fun x hx => hc x (desc_of_left hx)⟩

theorem safe_right {N : Nat} {t : Nat → Node α} {l r : Int} {o : Nat} (hlr : l < r) (h : Safe N t l r o) :
    Safe N t ((l + r) / 2 + 1) r (2 * o + 1) := by
  rcases h with h | ⟨h, hc⟩
  · rw [Fits, if_pos hlr] at h; exact .inl h.2.2
  · rw [Room, if_pos hlr] at h; exact .inr ⟨h.2.2, fun x hx => hc x (desc_of_right hx)⟩

/-- a step that leaves a clean subtree untouched -/
def Stable (t t' : Nat → Node α) (o : Nat) : Prop := Clean t o → t' = t

theorem safe_stable {N : Nat} {t t' : Nat → Node α} {l r : Int} {o : Nat} (hs : Stable t t' o)
    (h : Safe N t l r o) : Safe N t' l r o := by
  rcases h with h | ⟨h, hc⟩
  · exact .inl h
  · exact .inr ⟨h, by rw [hs hc]; exact hc⟩

theorem upd_stable (t : Nat → Node α) (o : Nat) (l r : Int) : Stable t (upd t o l r) o := upd_clean l r

/-! ### queries -/

/-- What a query needs to know about the aggregate. -/
structure Agg (nn : Prop) (sel : Node α → α) (comb : α → α → α) (R : Int → Int → (Int → α) → α → Prop) : Prop where
  node : ∀ (t : Nat → Node α) l r o, l ≤ r → Leafy t l r o → Own nn t l r o → R l r (below t l r o) (sel (t o))
  join : ∀ l m r f x y, l ≤ m → m < r → R l m f x → R (m + 1) r f y → R l r f (comb x y)
  congr : ∀ l r f g x, (∀ p, l ≤ p → p ≤ r → f p = g p) → R l r f x → R l r g x

theorem clean_left {t : Nat → Node α} {o : Nat} (h : Clean t o) : Clean t (2 * o) := fun x hx => h x (desc_of_left hx)
theorem clean_right {t : Nat → Node α} {o : Nat} (h : Clean t o) : Clean t (2 * o + 1) :=
  fun x hx => h x (desc_of_right hx)

theorem query_ok {nn : Prop} {sel : Node α → α} {comb : α → α → α} {R : Int → Int → (Int → α) → α → Prop}
    (hR : Agg nn sel comb R) {lv rv : Int} (hv : lv ≤ rv) (N : Nat) : ∀ (l r : Int) (o : Nat), l ≤ r →
    ∀ (fuel : Nat) (t : Nat → Node α), (r - l).toNat < fuel → 1 ≤ o → lv ≤ r → l ≤ rv → Safe (4 * N) t l r o →
    Leafy t l r o →
    ∃ t' x, query sel comb lv rv fuel l r o ⟨N, t⟩ = .ok (⟨N, t'⟩, x) ∧ Keeps t t' l r o ∧ Stable t t' o ∧
      (Pos nn t → Good nn lv rv t l r o → R (max l lv) (min r rv) (eff t l r o) x) := by
  refine seg_ind ?_ ?_
  · intro l o fuel t hf ho h1 h2 hS hLf
    obtain ⟨fuel, rfl⟩ : ∃ k, fuel = k + 1 := ⟨fuel - 1, by omega⟩
    rw [query, update_safe (t := ⟨N, t⟩) ho hS, Out.ok_bind]
    simp only [show lv ≤ l ∧ rv ≥ l from ⟨h1, h2⟩, and_self, if_true]
    rw [at_ok (t := ⟨N, upd t o l l⟩) (safe_lt hS), Out.ok_bind]
    have K := upd_keeps t (l := l) (r := l) ho (le_refl l)
    refine ⟨_, _, rfl, K, upd_stable t o l l, fun hp hg => ?_⟩
    rw [max_eq_left h1, min_eq_left h2]
    have hg' := K.good _ _ _ hp hg
    rw [Good] at hg'
    refine hR.congr _ _ _ _ _ (fun p _ _ => ?_) (hR.node _ l l o (le_refl l) (K.leafy hLf) (hg'.1 h1 h2))
    rw [upd_below_eq t ho (le_refl l)]
  · intro l r o hlr hL hRt fuel t hf ho h1 h2 hS hLf
    obtain ⟨fuel, rfl⟩ : ∃ k, fuel = k + 1 := ⟨fuel - 1, by omega⟩
    rw [query, update_safe (t := ⟨N, t⟩) ho hS, Out.ok_bind]
    have K := upd_keeps t (l := l) (r := r) ho hlr.le
    have S0 := upd_stable t o l r
    by_cases hc : lv ≤ l ∧ rv ≥ r
    · simp only [hc, and_self, if_true]
      rw [at_ok (t := ⟨N, upd t o l r⟩) (safe_lt hS), Out.ok_bind]
      refine ⟨_, _, rfl, K, S0, fun hp hg => ?_⟩
      rw [max_eq_left hc.1, min_eq_left hc.2]
      have hg' := K.good _ _ _ hp hg
      rw [Good] at hg'
      refine hR.congr _ _ _ _ _ (fun p _ _ => ?_) (hR.node _ l r o hlr.le (K.leafy hLf) (hg'.1 hc.1 hc.2))
      rw [upd_below_eq t ho hlr.le]
    · rw [if_neg hc]
      have hS' := safe_upd hS
      have hSl := safe_left hlr hS'
      have hSr := safe_right hlr hS'
      have hLf' := K.leafy hLf
      rw [Leafy, if_pos hlr] at hLf'
      have effL : ∀ p, p ≤ (l + r) / 2 → eff (upd t o l r) l ((l + r) / 2) (2 * o) p = eff t l r o p := by
        intro p hp
        rw [← K.eff, eff_eq _ l r o p, upd_self, app_settle, below, if_pos hlr, if_pos hp]
      have effR : ∀ p, (l + r) / 2 < p → eff (upd t o l r) ((l + r) / 2 + 1) r (2 * o + 1) p = eff t l r o p := by
        intro p hp
        rw [← K.eff, eff_eq _ l r o p, upd_self, app_settle, below, if_pos hlr, if_neg (by omega)]
      have hgLR : Pos nn t → Good nn lv rv t l r o → Pos nn (upd t o l r) ∧
          Good nn lv rv (upd t o l r) l ((l + r) / 2) (2 * o) ∧
          Good nn lv rv (upd t o l r) ((l + r) / 2 + 1) r (2 * o + 1) := by
        intro hp hg
        have hg' := K.good _ _ _ hp hg
        rw [Good, if_pos hlr] at hg'
        exact ⟨K.pos _ hp, hg'.2⟩
      by_cases c1 : rv ≤ (l + r) / 2
      · simp only [c1, if_true]
        obtain ⟨t', x, e, K', S', r'⟩ := hL fuel (upd t o l r) (by omega) (by omega) (by omega) h2 hSl hLf'.1
        refine ⟨t', x, e, K.trans (K'.left ho hlr), fun q => ?_, fun hp hg => ?_⟩
        · have := S' (by rw [S0 q]; exact clean_left q)
          rw [this, S0 q]
        · obtain ⟨hp', gl, gr⟩ := hgLR hp hg
          have := r' hp' gl
          rw [min_eq_right c1] at this
          rw [min_eq_right (by omega)]
          exact hR.congr _ _ _ _ _ (fun p _ _ => effL p (by omega)) this
      · simp only [c1, if_false]
        by_cases c2 : lv > (l + r) / 2
        · simp only [c2, if_true]
          obtain ⟨t', x, e, K', S', r'⟩ := hRt fuel (upd t o l r) (by omega) (by omega) h1 (by omega) hSr hLf'.2
          refine ⟨t', x, e, K.trans (K'.right ho hlr), fun q => ?_, fun hp hg => ?_⟩
          · have := S' (by rw [S0 q]; exact clean_right q)
            rw [this, S0 q]
          · obtain ⟨hp', gl, gr⟩ := hgLR hp hg
            have := r' hp' gr
            rw [max_eq_right (by omega)] at this
            rw [max_eq_right (by omega)]
            exact hR.congr _ _ _ _ _ (fun p _ _ => effR p (by omega)) this
        · simp only [c2, if_false]
          obtain ⟨t1, x, e, K1, S1, r1⟩ := hL fuel (upd t o l r) (by omega) (by omega) (by omega) h2 hSl hLf'.1
          rw [e, Out.ok_bind]
          have fr : ∀ x, Desc (2 * o + 1) x → t1 x = upd t o l r x :=
            fun x hx => K1.frame x fun hx' => desc_disjoint ho hx' hx
          have hSr1 : Safe (4 * N) t1 ((l + r) / 2 + 1) r (2 * o + 1) := by
            rcases hSr with h | ⟨h, hcl⟩
            · exact .inl h
            · exact .inr ⟨h, fun x hx => by rw [fr x hx]; exact hcl x hx⟩
          obtain ⟨t2, y, e2, K2, S2, r2⟩ := hRt fuel t1 (by omega) (by omega) h1 (by omega) hSr1
            (leafy_congr _ _ _ (by omega) fr hLf'.2)
          dsimp only
          rw [e2, Out.ok_bind]
          refine ⟨t2, _, rfl, K.trans ((K1.left ho hlr).trans (K2.right ho hlr)), fun q => ?_, fun hp hg => ?_⟩
          · have q1 : t1 = t := by rw [S1 (by rw [S0 q]; exact clean_left q), S0 q]
            rw [S2 (by rw [q1]; exact clean_right q), q1]
          · obtain ⟨hp', gl, gr⟩ := hgLR hp hg
            have a1 := r1 hp' gl
            have a2 := r2 (K1.pos _ hp') (good_congr _ _ _ (by omega) fr gr)
            rw [min_eq_left (by omega)] at a1
            rw [max_eq_left (by omega)] at a2
            refine hR.join _ ((l + r) / 2) _ _ _ _ (by omega) (by omega)
              (hR.congr _ _ _ _ _ (fun p _ _ => effL p (by omega)) a1)
              (hR.congr _ _ _ _ _ (fun p _ _ => ?_) a2)
            rw [eff_congr _ _ _ (by omega) fr]; exact effR p (by omega)

/-! ### the three aggregates, and single positions -/

/-- sum -/
def RSum (l r : Int) (f : Int → α) (x : α) : Prop := x = ∑ p ∈ Finset.Icc l r, f p

theorem sum_join (l m r : Int) (f : Int → α) (h1 : l ≤ m) (h2 : m < r) :
    ∑ p ∈ Finset.Icc l r, f p = ∑ p ∈ Finset.Icc l m, f p + ∑ p ∈ Finset.Icc (m + 1) r, f p := by
  rw [← Finset.sum_union]
  · congr 1
    ext p
    simp only [Finset.mem_union, Finset.mem_Icc]
    omega
  · rw [Finset.disjoint_left]
    intro p
    simp only [Finset.mem_Icc]
    omega

theorem agg_sum : Agg (α := α) False Node.sm (· + ·) RSum where
  node := fun t l r o _ _ h => h.sum
  join := by
    intro l m r f x y h1 h2 hx hy
    unfold RSum at *
    rw [sum_join l m r f h1 h2, hx, hy]
  congr := by
    intro l r f g x h hx
    unfold RSum at *
    rw [hx]
    exact Finset.sum_congr rfl fun p hp => by rw [Finset.mem_Icc] at hp; exact h p hp.1 hp.2

theorem agg_min : Agg (α := α) True Node.mn min IsMinOn where
  node := fun t l r o _ _ h => h.min trivial
  join := by
    rintro l m r f x y h1 h2 ⟨⟨p, p1, p2, p3⟩, hx⟩ ⟨⟨q, q1, q2, q3⟩, hy⟩
    refine ⟨?_, fun s s1 s2 => ?_⟩
    · rcases min_choice x y with e | e
      · exact ⟨p, p1, by omega, by rw [e, p3]⟩
      · exact ⟨q, by omega, q2, by rw [e, q3]⟩
    · by_cases c : s ≤ m
      · exact (min_le_left _ _).trans (hx s s1 c)
      · exact (min_le_right _ _).trans (hy s (by omega) s2)
  congr := by
    rintro l r f g x h ⟨⟨p, p1, p2, p3⟩, hx⟩
    exact ⟨⟨p, p1, p2, by rw [p3, h p p1 p2]⟩, fun s s1 s2 => by rw [← h s s1 s2]; exact hx s s1 s2⟩

theorem agg_max : Agg (α := α) True Node.mx max IsMaxOn where
  node := fun t l r o _ _ h => h.max trivial
  join := by
    rintro l m r f x y h1 h2 ⟨⟨p, p1, p2, p3⟩, hx⟩ ⟨⟨q, q1, q2, q3⟩, hy⟩
    refine ⟨?_, fun s s1 s2 => ?_⟩
    · rcases max_choice x y with e | e
      · exact ⟨p, p1, by omega, by rw [e, p3]⟩
      · exact ⟨q, by omega, q2, by rw [e, q3]⟩
    · by_cases c : s ≤ m
      · exact (hx s s1 c).trans (le_max_left _ _)
      · exact (hy s (by omega) s2).trans (le_max_right _ _)
  congr := by
    rintro l r f g x h ⟨⟨p, p1, p2, p3⟩, hx⟩
    exact ⟨⟨p, p1, p2, by rw [p3, h p p1 p2]⟩, fun s s1 s2 => by rw [← h s s1 s2]; exact hx s s1 s2⟩

/-- a single position -/
def ROne (l r : Int) (f : Int → α) (x : α) : Prop := l = r → x = f l

theorem agg_one {sel : Node α → α} (comb : α → α → α)
    (hs : ∀ nd : Node α, nd.mn = nd.sm → nd.mx = nd.sm → sel nd = nd.sm) : Agg (α := α) False sel comb ROne where
  node := by
    intro t l r o _ hL _ e
    subst e
    rw [Leafy, if_neg (by omega)] at hL
    rw [hs _ hL.1 hL.2, below, if_neg (by omega)]
  join := by intro l m r f x y h1 h2 _ _ e; omega
  congr := by intro l r f g x h hx e; rw [hx e, h l (le_refl l) e.le]

theorem good_one (t : Nat → Node α) (a : Int) : ∀ (l r : Int) (o : Nat), l ≤ r → Good False a a t l r o := by
  refine seg_ind ?_ ?_
  · intro l o
    rw [Good, if_neg (by omega)]
    exact ⟨fun _ _ => ⟨by simp [below], False.elim, False.elim⟩, trivial⟩
  · intro l r o hlr hL hR
    rw [Good, if_pos hlr]
    exact ⟨fun h1 h2 => by omega, hL, hR⟩

/-! ### interval updates -/

/-- The two tags. -/
structure Tag (nn : Prop) (tag : Node α → Node α) (g : α → α) : Prop where
  app : ∀ nd, nd.hasAdd = false → nd.hasMul = false → ∀ x, app (tag nd) x = g x
  vals : ∀ nd, (tag nd).sm = nd.sm ∧ (tag nd).mn = nd.mn ∧ (tag nd).mx = nd.mx
  pos : nn → ∀ nd, nd.hasMul = false → (tag nd).hasMul = true → 0 ≤ (tag nd).mul

/-- The interval is inside the updated one or apart from it. -/
def Apart (a b lv rv : Int) : Prop := (lv ≤ a ∧ b ≤ rv) ∨ b < lv ∨ rv < a

theorem change_ok {tag : Node α → Node α} {g : α → α} (hT : Tag False tag g) {lv rv : Int} (N : Nat) : ∀ (l r : Int) (o : Nat), l ≤ r →
    ∀ (fuel : Nat) (t : Nat → Node α), (r - l).toNat < fuel → 1 ≤ o → lv ≤ r → l ≤ rv → Fits (4 * N) l r o →
    ∃ t', change tag lv rv fuel l r o ⟨N, t⟩ = .ok ⟨N, t'⟩ ∧ (∀ x, ¬ Desc o x → t' x = t x) ∧
      (∀ p, l ≤ p → p ≤ r → eff t' l r o p = if lv ≤ p ∧ p ≤ rv then g (eff t l r o p) else eff t l r o p) ∧
      (Leafy t l r o → Leafy t' l r o) ∧
      (∀ nn, Tag nn tag g → Pos nn t → Pos nn t') ∧
      (∀ nn a b, Tag nn tag g → Apart a b lv rv → Pos nn t → Good nn a b t l r o → Good nn a b t' l r o) := by
  have cover : ∀ (l r : Int) (o : Nat), l ≤ r → ∀ (fuel : Nat) (t : Nat → Node α), 1 ≤ o → Fits (4 * N) l r o →
      lv ≤ l ∧ rv ≥ r →
    ∃ t', change tag lv rv (fuel + 1) l r o ⟨N, t⟩ = .ok ⟨N, t'⟩ ∧ (∀ x, ¬ Desc o x → t' x = t x) ∧
      (∀ p, l ≤ p → p ≤ r → eff t' l r o p = if lv ≤ p ∧ p ≤ rv then g (eff t l r o p) else eff t l r o p) ∧
      (Leafy t l r o → Leafy t' l r o) ∧
      (∀ nn, Tag nn tag g → Pos nn t → Pos nn t') ∧
      (∀ nn a b, Tag nn tag g → Apart a b lv rv → Pos nn t → Good nn a b t l r o → Good nn a b t' l r o) := by
    intro l r o hlr fuel t ho hS hc
    have K := upd_keeps t (l := l) (r := r) ho hlr
    rw [change, update_ok (t := ⟨N, t⟩) ho (fits_child hS), Out.ok_bind]
    simp only [hc, and_self, if_true]
    rw [at_ok (t := ⟨N, upd t o l r⟩) (fits_lt hS), Out.ok_bind, put_ok _ (fits_lt hS)]
    have sub : ∀ x, Desc (2 * o) x ∨ Desc (2 * o + 1) x →
        (if x = o then tag (upd t o l r o) else upd t o l r x) = upd t o l r x :=
      fun x hx => if_neg (desc_strict ho hx).2
    have v := hT.vals (upd t o l r o)
    refine ⟨_, rfl, fun x hx => ?_, fun p h1 h2 => ?_, fun q => ?_, fun nn hTn q => ?_, fun nn a b _ _ q gd => ?_⟩
    · rw [if_neg (fun e : x = o => hx (e ▸ desc_self o))]; exact upd_other t l r hx
    · rw [if_pos (by omega), eff_flags hlr sub (by rw [if_pos rfl]; exact v.1), if_pos rfl,
        hT.app _ (by rw [upd_self]; rfl) (by rw [upd_self]; rfl), upd_below_eq t ho hlr]
    · exact leafy_flags hlr sub (by rw [if_pos rfl]; exact v.1) (by rw [if_pos rfl]; exact v.2.1)
        (by rw [if_pos rfl]; exact v.2.2) (K.leafy q)
    · intro hn x hx
      dsimp only at hx ⊢
      by_cases e : x = o
      · rw [if_pos e] at hx ⊢
        exact hTn.pos hn _ (by rw [upd_self]; rfl) hx
      · rw [if_neg e] at hx ⊢
        exact K.pos nn q hn x hx
    · exact good_flags hlr sub (by rw [if_pos rfl]; exact v.1) (by rw [if_pos rfl]; exact v.2.1)
        (by rw [if_pos rfl]; exact v.2.2) (K.good nn a b q gd)
  refine seg_ind ?_ ?_
  · intro l o fuel t hf ho h1 h2 hS
    obtain ⟨fuel, rfl⟩ : ∃ k, fuel = k + 1 := ⟨fuel - 1, by omega⟩
    exact cover l l o (le_refl l) fuel t ho hS ⟨h1, h2⟩
  · intro l r o hlr hL hR fuel t hf ho h1 h2 hS
    obtain ⟨fuel, rfl⟩ : ∃ k, fuel = k + 1 := ⟨fuel - 1, by omega⟩
    by_cases hc : lv ≤ l ∧ rv ≥ r
    · exact cover l r o hlr.le fuel t ho hS hc
    have K := upd_keeps t (l := l) (r := r) ho hlr.le
    rw [change, update_ok (t := ⟨N, t⟩) ho (fits_child hS), Out.ok_bind, if_neg hc]
    rw [Fits, if_pos hlr] at hS
    set u := upd t o l r with hu
    have uo : ∀ x, app (u o) x = x := fun x => by rw [hu, upd_self, app_settle]
    -- left half
    have left : ∃ t1, (if lv ≤ (l + r) / 2 then change tag lv rv fuel l ((l + r) / 2) (2 * o) ⟨N, u⟩ else .ok ⟨N, u⟩)
          = .ok ⟨N, t1⟩ ∧ (∀ x, ¬ Desc (2 * o) x → t1 x = u x) ∧
        (∀ p, l ≤ p → p ≤ (l + r) / 2 → eff t1 l ((l + r) / 2) (2 * o) p =
          if lv ≤ p ∧ p ≤ rv then g (eff u l ((l + r) / 2) (2 * o) p) else eff u l ((l + r) / 2) (2 * o) p) ∧
        (Leafy u l ((l + r) / 2) (2 * o) → Leafy t1 l ((l + r) / 2) (2 * o)) ∧
        (∀ nn, Tag nn tag g → Pos nn u → Pos nn t1) ∧
        (∀ nn a b, Tag nn tag g → Apart a b lv rv → Pos nn u → Good nn a b u l ((l + r) / 2) (2 * o) →
          Good nn a b t1 l ((l + r) / 2) (2 * o)) := by
      by_cases c : lv ≤ (l + r) / 2
      · rw [if_pos c]
        exact hL fuel u (by omega) (by omega) c h2 hS.2.1
      · rw [if_neg c]
        exact ⟨u, rfl, fun _ _ => rfl, fun p _ _ => by rw [if_neg (by omega)], id, fun _ _ => id, fun _ _ _ _ _ _ => id⟩
    obtain ⟨t1, e1, f1, v1, lf1, p1, g1⟩ := left
    dsimp only
    rw [e1, Out.ok_bind]
    have right : ∃ t2, (if rv > (l + r) / 2 then change tag lv rv fuel ((l + r) / 2 + 1) r (2 * o + 1) ⟨N, t1⟩
          else .ok ⟨N, t1⟩) = .ok ⟨N, t2⟩ ∧ (∀ x, ¬ Desc (2 * o + 1) x → t2 x = t1 x) ∧
        (∀ p, (l + r) / 2 + 1 ≤ p → p ≤ r → eff t2 ((l + r) / 2 + 1) r (2 * o + 1) p =
          if lv ≤ p ∧ p ≤ rv then g (eff t1 ((l + r) / 2 + 1) r (2 * o + 1) p)
          else eff t1 ((l + r) / 2 + 1) r (2 * o + 1) p) ∧
        (Leafy t1 ((l + r) / 2 + 1) r (2 * o + 1) → Leafy t2 ((l + r) / 2 + 1) r (2 * o + 1)) ∧
        (∀ nn, Tag nn tag g → Pos nn t1 → Pos nn t2) ∧
        (∀ nn a b, Tag nn tag g → Apart a b lv rv → Pos nn t1 → Good nn a b t1 ((l + r) / 2 + 1) r (2 * o + 1) →
          Good nn a b t2 ((l + r) / 2 + 1) r (2 * o + 1)) := by
      by_cases c : rv > (l + r) / 2
      · rw [if_pos c]
        exact hR fuel t1 (by omega) (by omega) h1 (by omega) hS.2.2
      · rw [if_neg c]
        exact ⟨t1, rfl, fun _ _ => rfl, fun p _ _ => by rw [if_neg (by omega)], id, fun _ _ => id, fun _ _ _ _ _ _ => id⟩
    obtain ⟨t2, e2, f2, v2, lf2, p2, g2⟩ := right
    have frR : ∀ x, Desc (2 * o + 1) x → t1 x = u x := fun x hx => f1 x fun hx' => desc_disjoint ho hx' hx
    have frL : ∀ x, Desc (2 * o) x → t2 x = t1 x := fun x hx => f2 x fun hx' => desc_disjoint ho hx hx'
    have h0 : t2 o = u o := (f2 o not_desc_right).trans (f1 o (not_desc_left ho))
    refine ⟨t2, e2, fun x hx => ?_, fun p q1 q2 => ?_, fun q => ?_, fun nn hTn q => ?_, fun nn a b hTn hA q gd => ?_⟩
    · rw [f2 x fun q => hx (desc_of_right q), f1 x fun q => hx (desc_of_left q)]
      exact K.frame x hx
    · rw [← K.eff, eff_eq t2 l r o p, h0, uo, eff_eq u l r o p, uo]
      unfold below
      rw [if_pos hlr, if_pos hlr]
      by_cases c : p ≤ (l + r) / 2
      · rw [if_pos c, if_pos c, eff_congr _ _ _ (by omega) frL, v1 p q1 c]
      · rw [if_neg c, if_neg c, v2 p (by omega) q2, eff_congr _ _ _ (by omega) frR]
    · have q' := K.leafy q
      rw [Leafy, if_pos hlr] at q' ⊢
      exact ⟨leafy_congr _ _ _ (by omega) frL (lf1 q'.1), lf2 (leafy_congr _ _ _ (by omega) frR q'.2)⟩
    · exact p2 nn hTn (p1 nn hTn (K.pos nn q))
    · have gd' := K.good nn a b q gd
      have q' := K.pos nn q
      rw [Good, if_pos hlr] at gd' ⊢
      refine ⟨fun i1 i2 => ?_, good_congr _ _ _ (by omega) frL (g1 nn a b hTn hA q' gd'.2.1),
        g2 nn a b hTn hA (p1 nn hTn q') (good_congr _ _ _ (by omega) frR gd'.2.2)⟩
      exact absurd hA (by unfold Apart; omega)

/-! ### construction -/

theorem room_of {N : Nat} : ∀ (l r : Int) (o : Nat), l ≤ r → ∀ K : Nat, r - l + 1 ≤ (2 : Int) ^ K →
    (o + 1) * 2 ^ K ≤ N → Room N l r o := by
  have hlt : ∀ (o K : Nat), (o + 1) * 2 ^ K ≤ N → o < N := by
    intro o K h
    have h2 : o + 1 ≤ (o + 1) * 2 ^ K := Nat.le_mul_of_pos_right _ (Nat.two_pow_pos K)
    omega
  refine seg_ind ?_ ?_
  · intro l o K _ h
    rw [Room, if_neg (by omega)]
    exact ⟨hlt o K h, trivial⟩
  · intro l r o hlr hL hR K h1 h2
    obtain ⟨K, rfl⟩ : ∃ k, K = k + 1 := ⟨K - 1, by
      rcases K with _ | K
      · simp only [pow_zero] at h1; omega
      · omega⟩
    rw [pow_succ] at h1
    rw [Room, if_pos hlr]
    refine ⟨hlt o _ h2, hL K (by omega) ?_, hR K (by omega) ?_⟩
    · refine le_trans ?_ h2
      rw [pow_succ, Nat.mul_comm (2 ^ K) 2, ← Nat.mul_assoc]
      exact Nat.mul_le_mul_right _ (by omega)
    · refine le_trans ?_ h2
      rw [pow_succ, Nat.mul_comm (2 ^ K) 2, ← Nat.mul_assoc]
      exact Nat.mul_le_mul_right _ (by omega)

theorem exists_pow (n : Nat) (h : 1 ≤ n) : ∃ K : Nat, n ≤ 2 ^ K ∧ 2 ^ K < 2 * n := by
  induction n with
  | zero => omega
  | succ n ih =>
    by_cases h0 : n = 0
    · subst h0; exact ⟨0, by simp⟩
    · obtain ⟨K, h1, h2⟩ := ih (by omega)
      by_cases h3 : n + 1 ≤ 2 ^ K
      · exact ⟨K, h3, by omega⟩
      · exact ⟨K + 1, by rw [pow_succ]; omega, by rw [pow_succ]; omega⟩

theorem room_root {n : Nat} (h : 1 ≤ n) : Room (4 * n) 0 ((n : Int) - 1) 1 := by
  obtain ⟨K, h1, h2⟩ := exists_pow n h
  refine room_of _ _ _ (by omega) K ?_ (by omega)
  have : ((n : Nat) : Int) ≤ ((2 ^ K : Nat) : Int) := by exact_mod_cast h1
  push_cast at this
  omega

omit [CommRing α] [LinearOrder α] [IsStrictOrderedRing α] in
theorem elemAt_ok {v : List α} {l : Int} {x : α} (h0 : 0 ≤ l) (h : v[l.toNat]? = some x) : elemAt v l = .ok x := by
  simp [elemAt, h0, h]

theorem init_ok (v : List α) (f : Int → α) (hf : ∀ p : Int, 0 ≤ p → p < v.length → v[p.toNat]? = some (f p)) (N : Nat) :
    ∀ (l r : Int) (o : Nat), l ≤ r → ∀ (fuel : Nat) (t : Nat → Node α), (r - l).toNat < fuel → 1 ≤ o →
    Room (4 * N) l r o → 0 ≤ l → r < v.length → Clean t o →
    ∃ t', init v fuel l r o ⟨N, t⟩ = .ok ⟨N, t'⟩ ∧ (∀ x, ¬ Desc o x → t' x = t x) ∧ Clean t' o ∧ Leafy t' l r o ∧
      (∀ nn a b, Good nn a b t' l r o) ∧ ∀ p, l ≤ p → p ≤ r → eff t' l r o p = f p := by
  refine seg_ind ?_ ?_
  · intro l o fuel t hfu ho hR h0 hr hC
    obtain ⟨fuel, rfl⟩ : ∃ k, fuel = k + 1 := ⟨fuel - 1, by omega⟩
    rw [init, if_pos rfl, elemAt_ok h0 (hf l h0 hr), Out.ok_bind, at_ok (t := ⟨N, t⟩) (room_lt hR), Out.ok_bind,
      put_ok _ (room_lt hR)]
    refine ⟨_, rfl, fun x hx => if_neg (fun e : x = o => hx (e ▸ desc_self o)), fun x hx => ?_, ?_, fun nn a b => ?_,
      fun p h1 h2 => ?_⟩
    · by_cases e : x = o
      · simp [e]
      · simp only [e, if_false]; exact hC x hx
    · rw [Leafy, if_neg (by omega)]; simp
    · rw [Good, if_neg (by omega)]
      refine ⟨fun _ _ => ⟨by simp [below], fun _ => ?_, fun _ => ?_⟩, trivial⟩
      · exact ⟨⟨l, le_refl l, le_refl l, by simp [below]⟩, fun p _ _ => by simp [below]⟩
      · exact ⟨⟨l, le_refl l, le_refl l, by simp [below]⟩, fun p _ _ => by simp [below]⟩
    · rw [eff_eq, below, if_neg (show ¬ l < l by omega)]
      have : p = l := by omega
      subst this
      simp [app]
  · intro l r o hlr hL hRt fuel t hfu ho hR h0 hr hC
    obtain ⟨fuel, rfl⟩ : ∃ k, fuel = k + 1 := ⟨fuel - 1, by omega⟩
    have hRo := room_lt hR
    rw [Room, if_pos hlr] at hR
    rw [init, if_neg (by omega)]
    dsimp only
    obtain ⟨t1, e1, f1, c1, lf1, g1, v1⟩ := hL fuel t (by omega) (by omega) hR.2.1 h0 (by omega) (clean_left hC)
    rw [e1, Out.ok_bind]
    have hC1 : Clean t1 (2 * o + 1) := fun x hx => by
      rw [f1 x fun hx' => desc_disjoint ho hx' hx]; exact hC x (desc_of_right hx)
    obtain ⟨t2, e2, f2, c2, lf2, g2, v2⟩ := hRt fuel t1 (by omega) (by omega) hR.2.2 (by omega) hr hC1
    rw [e2, Out.ok_bind, at_ok (t := ⟨N, t2⟩) (room_lt hR.2.1), Out.ok_bind,
      at_ok (t := ⟨N, t2⟩) (room_lt hR.2.2), Out.ok_bind, at_ok (t := ⟨N, t2⟩) hRo, Out.ok_bind, put_ok _ hRo]
    have frL : ∀ x, Desc (2 * o) x → t2 x = t1 x := fun x hx => f2 x fun hx' => desc_disjoint ho hx hx'
    have h0' : t2 o = t o := (f2 o not_desc_right).trans (f1 o (not_desc_left ho))
    set nd : Node α := { t2 o with
      mn := min (t2 (2 * o)).mn (t2 (2 * o + 1)).mn, mx := max (t2 (2 * o)).mx (t2 (2 * o + 1)).mx,
      sm := (t2 (2 * o)).sm + (t2 (2 * o + 1)).sm } with hnd
    set t3 : Nat → Node α := fun x => if x = o then nd else t2 x with ht3
    have t3o : t3 o = nd := by simp [ht3]
    have n3L : ∀ x, Desc (2 * o) x → t3 x = t2 x := fun x hx => by
      simp only [ht3]; rw [if_neg (desc_strict ho (.inl hx)).2]
    have n3R : ∀ x, Desc (2 * o + 1) x → t3 x = t2 x := fun x hx => by
      simp only [ht3]; rw [if_neg (desc_strict ho (.inr hx)).2]
    have n3L' : ∀ x, Desc (2 * o) x → t3 x = t1 x := fun x hx => (n3L x hx).trans (frL x hx)
    have hfl := hC o (desc_self o)
    have ndf : nd.hasAdd = false ∧ nd.hasMul = false := by rw [hnd, h0']; exact hfl
    have bl : ∀ p, l ≤ p → p ≤ r → below t3 l r o p = f p := by
      intro p p1 p2
      unfold below
      rw [if_pos hlr]
      by_cases c : p ≤ (l + r) / 2
      · rw [if_pos c, eff_congr _ _ _ (by omega) n3L', v1 p p1 c]
      · rw [if_neg c, eff_congr _ _ _ (by omega) n3R, v2 p (by omega) p2]
    -- what the children store
    have oL := g1 True l ((l + r) / 2)
    have oR := g2 True ((l + r) / 2 + 1) r
    rw [Good] at oL oR
    have oL := oL.1 (le_refl _) (le_refl _)
    have oR := oR.1 (le_refl _) (le_refl _)
    have bL : ∀ p, l ≤ p → p ≤ (l + r) / 2 → below t1 l ((l + r) / 2) (2 * o) p = f p := by
      intro p p1 p2
      rw [← v1 p p1 p2, eff_eq]; simp [app, (c1 _ (desc_self _)).1, (c1 _ (desc_self _)).2]
    have bR : ∀ p, (l + r) / 2 + 1 ≤ p → p ≤ r → below t2 ((l + r) / 2 + 1) r (2 * o + 1) p = f p := by
      intro p p1 p2
      rw [← v2 p p1 p2, eff_eq]; simp [app, (c2 _ (desc_self _)).1, (c2 _ (desc_self _)).2]
    have c2o : t2 (2 * o) = t1 (2 * o) := frL _ (desc_self _)
    have sumf : nd.sm = ∑ p ∈ Finset.Icc l r, f p := by
      have e1 := agg_sum.congr _ _ _ _ _ bL (agg_sum.node t1 l _ _ (by omega) lf1 ⟨oL.sum, False.elim, False.elim⟩)
      have e2 := agg_sum.congr _ _ _ _ _ bR (agg_sum.node t2 _ r _ (by omega) lf2 ⟨oR.sum, False.elim, False.elim⟩)
      have := agg_sum.join l ((l + r) / 2) r f _ _ (by omega) (by omega) e1 e2
      rw [hnd]; dsimp only; rw [c2o]; exact this
    have minf : IsMinOn l r f nd.mn := by
      have e1 := agg_min.congr _ _ _ _ _ bL (oL.min trivial)
      have e2 := agg_min.congr _ _ _ _ _ bR (oR.min trivial)
      have := agg_min.join l ((l + r) / 2) r f _ _ (by omega) (by omega) e1 e2
      rw [hnd]; dsimp only; rw [c2o]; exact this
    have maxf : IsMaxOn l r f nd.mx := by
      have e1 := agg_max.congr _ _ _ _ _ bL (oL.max trivial)
      have e2 := agg_max.congr _ _ _ _ _ bR (oR.max trivial)
      have := agg_max.join l ((l + r) / 2) r f _ _ (by omega) (by omega) e1 e2
      rw [hnd]; dsimp only; rw [c2o]; exact this
    refine ⟨t3, rfl, fun x hx => ?_, fun x hx => ?_, ?_, fun nn a b => ?_, fun p p1 p2 => ?_⟩
    · simp only [ht3]
      rw [if_neg (fun e : x = o => hx (e ▸ desc_self o)), f2 x fun q => hx (desc_of_right q),
        f1 x fun q => hx (desc_of_left q)]
    · by_cases e : x = o
      · rw [e, t3o]; exact ndf
      · simp only [ht3, e, if_false]
        by_cases d2 : Desc (2 * o + 1) x
        · exact c2 x d2
        · rw [f2 x d2]
          by_cases d1 : Desc (2 * o) x
          · exact c1 x d1
          · rw [f1 x d1]; exact hC x hx
    · rw [Leafy, if_pos hlr]
      exact ⟨leafy_congr _ _ _ (by omega) n3L' lf1, leafy_congr _ _ _ (by omega) n3R lf2⟩
    · rw [Good, if_pos hlr]
      refine ⟨fun _ _ => ⟨?_, fun _ => ?_, fun _ => ?_⟩, good_congr _ _ _ (by omega) n3L' (g1 nn a b),
        good_congr _ _ _ (by omega) n3R (g2 nn a b)⟩
      · rw [t3o, sumf]
        exact Finset.sum_congr rfl fun p hp => by rw [Finset.mem_Icc] at hp; exact (bl p hp.1 hp.2).symm
      · rw [t3o]; exact agg_min.congr _ _ _ _ _ (fun p p1 p2 => (bl p p1 p2).symm) minf
      · rw [t3o]; exact agg_max.congr _ _ _ _ _ (fun p p1 p2 => (bl p p1 p2).symm) maxf
    · rw [eff_eq, t3o, bl p p1 p2]; simp [app, ndf.1, ndf.2]

theorem tag_add (nn : Prop) (x : α) : Tag nn (fun nd : Node α => { nd with add := x, hasAdd := true }) (· + x) :=
  ⟨fun nd h1 h2 y => by simp [app, h2], fun _ => ⟨rfl, rfl, rfl⟩, fun _ nd h1 h2 => by simp [h1] at h2⟩

theorem tag_mul (nn : Prop) (x : α) (h : nn → 0 ≤ x) :
    Tag nn (fun nd : Node α => { nd with mul := x, hasMul := true }) (· * x) :=
  ⟨fun nd h1 h2 y => by simp [app, h1], fun _ => ⟨rfl, rfl, rfl⟩, fun q _ _ _ => h q⟩

/-! ### histories -/

/-- The element at a position. -/
def val (v : List α) (p : Int) : α := v.getD p.toNat 0

theorem val_some (v : List α) {p : Int} (h0 : 0 ≤ p) (h : p < v.length) : v[p.toNat]? = some (val v p) := by
  have : p.toNat < v.length := by omega
  simp [val, List.getElem?_eq_getElem this]

/-- The state of a tree after a history: it denotes the array `v`. -/
structure St (v : List α) (t : Nat → Node α) : Prop where
  eff : ∀ p : Int, 0 ≤ p → p < v.length → eff t 0 ((v.length : Int) - 1) 1 p = val v p
  leafy : Leafy t 0 ((v.length : Int) - 1) 1

theorem build_ok (fuel : Nat) (v : List α) (hv : v ≠ []) (hf : v.length ≤ fuel) :
    ∃ t, build fuel v = .ok ⟨v.length, t⟩ ∧ St v t ∧ Clean t 1 ∧ (∀ nn, Pos nn t) ∧
      ∀ nn a b, Good nn a b t 0 ((v.length : Int) - 1) 1 := by
  have hl : 1 ≤ v.length := by cases v with | nil => exact absurd rfl hv | cons => simp
  unfold build
  dsimp only
  obtain ⟨t, e, fr, c, lf, g, vv⟩ := init_ok v (val v) (fun p => val_some v) v.length 0 ((v.length : Int) - 1) 1
    (by omega) fuel (fun _ => ⟨v.headD 0, v.headD 0, v.headD 0, v.headD 0, v.headD 0, false, false⟩)
    (by omega) (le_refl 1) (room_root hl) (le_refl 0) (by omega) (fun x _ => ⟨rfl, rfl⟩)
  refine ⟨t, e, ⟨fun p h1 h2 => vv p h1 (by omega), lf⟩, c, fun nn q x hx => ?_, g⟩
  by_cases d : Desc 1 x
  · rw [(c x d).2] at hx; cases hx
  · rw [fr x d] at hx; cases hx

open Spec

theorem length_apply (v : List α) (op : Op α) : (apply v op).length = v.length := by cases op <;> simp [apply]

theorem val_mapIdx (v : List α) (g : Nat → α → α) {p : Int} (h0 : 0 ≤ p) (h : p < v.length) :
    val (v.mapIdx g) p = g p.toNat (val v p) := by
  have : p.toNat < v.length := by omega
  simp [val, List.getD_eq_getElem?_getD, List.getElem?_eq_getElem this]

/-- Queries. -/
theorem query_st {nn : Prop} {sel : Node α → α} {comb : α → α → α} {R : Int → Int → (Int → α) → α → Prop}
    (hR : Agg nn sel comb R) {v : List α} {a b : Int} (hr : InRange v.length a b)
    {fuel : Nat} (hf : v.length ≤ fuel) {t : Nat → Node α} (hS : Safe (4 * v.length) t 0 ((v.length : Int) - 1) 1)
    (hst : St v t) :
    ∃ t' x, query sel comb a b fuel 0 ((v.length : Int) - 1) 1 ⟨v.length, t⟩ = .ok (⟨v.length, t'⟩, x) ∧ St v t' ∧
      Keeps t t' 0 ((v.length : Int) - 1) 1 ∧ Stable t t' 1 ∧
      (Pos nn t → Good nn a b t 0 ((v.length : Int) - 1) 1 → R a b (val v) x) := by
  obtain ⟨r1, r2, r3⟩ := hr
  obtain ⟨t', x, e, K, S, r⟩ := query_ok hR r2 v.length 0 ((v.length : Int) - 1) 1 (by omega) fuel t (by omega)
    (le_refl 1) (by omega) (by omega) hS hst.leafy
  refine ⟨t', x, e, ⟨fun p h1 h2 => (K.eff p).trans (hst.eff p h1 h2), K.leafy hst.leafy⟩, K, S, fun hp hg => ?_⟩
  have := r hp hg
  rw [max_eq_right r1, min_eq_right (by omega)] at this
  exact hR.congr _ _ _ _ _ (fun p p1 p2 => hst.eff p (by omega) (by omega)) this

theorem exec_ok {v : List α} {fuel : Nat} (hf : v.length ≤ fuel)
    (hF : Fits (4 * v.length) 0 ((v.length : Int) - 1) 1) {t : Nat → Node α} (hst : St v t) (op : Op α)
    (hr : Op.InRange v.length op) :
    ∃ t', exec fuel ⟨v.length, t⟩ op = .ok ⟨v.length, t'⟩ ∧ St (apply v op) t' ∧
      (∀ nn, (nn → Op.NonNeg op) → Pos nn t → Pos nn t') ∧
      (∀ nn a b, (nn → Op.NonNeg op) → Op.Respects a b op → Pos nn t →
        Good nn a b t 0 ((v.length : Int) - 1) 1 → Good nn a b t' 0 ((v.length : Int) - 1) 1) := by
  have one : ∀ {sel : Node α → α} {comb : α → α → α}
      (_ : ∀ nd : Node α, nd.mn = nd.sm → nd.mx = nd.sm → sel nd = nd.sm) (lv rv : Int) (_ : InRange v.length lv rv),
      ∃ t', (do let (t, _) ← query sel comb lv rv fuel 0 ((v.length : Int) - 1) 1 ⟨v.length, t⟩; Out.ok t)
        = .ok ⟨v.length, t'⟩ ∧ St v t' ∧
        (∀ nn, Pos nn t → Pos nn t') ∧
        (∀ nn a b, Pos nn t → Good nn a b t 0 ((v.length : Int) - 1) 1 →
          Good nn a b t' 0 ((v.length : Int) - 1) 1) := by
    intro sel comb hs lv rv hr
    obtain ⟨t', x, e, st, K, _⟩ := query_st (agg_one comb hs) hr hf (.inl hF) hst
    exact ⟨t', by rw [e]; rfl, st, K.pos, K.good⟩
  have upd : ∀ {tag : Node α → Node α} {g : α → α} (hT : Tag False tag g) (lv rv : Int) (_ : InRange v.length lv rv),
      ∃ t', change tag lv rv fuel 0 ((v.length : Int) - 1) 1 ⟨v.length, t⟩ = .ok ⟨v.length, t'⟩ ∧
        St (v.mapIdx fun i y => if lv ≤ i ∧ i ≤ rv then g y else y) t' ∧
        (∀ nn, Tag nn tag g → Pos nn t → Pos nn t') ∧
        (∀ nn a b, Tag nn tag g → Apart a b lv rv → Pos nn t → Good nn a b t 0 ((v.length : Int) - 1) 1 →
          Good nn a b t' 0 ((v.length : Int) - 1) 1) := by
    intro tag g hT lv rv hr
    obtain ⟨r1, r2, r3⟩ := hr
    obtain ⟨t', e, _, ev, lf, ps, gd⟩ := change_ok hT (lv := lv) (rv := rv) v.length 0 ((v.length : Int) - 1) 1
      (by omega) fuel t (by omega) (le_refl 1) (by omega) (by omega) hF
    refine ⟨t', e, ⟨fun p h1 h2 => ?_, ?_⟩, ps, gd⟩
    · rw [List.length_mapIdx] at h2 ⊢
      rw [ev p h1 (by omega), hst.eff p h1 h2, val_mapIdx v _ h1 h2, Int.toNat_of_nonneg h1]
    · rw [List.length_mapIdx]; exact lf hst.leafy
  cases op with
  | add lv rv x =>
    obtain ⟨t', e, st, ps, gd⟩ := upd (tag_add False x) lv rv hr
    exact ⟨t', e, st, fun nn _ => ps nn (tag_add nn x), fun nn a b _ hA => gd nn a b (tag_add nn x) hA⟩
  | mul lv rv x =>
    obtain ⟨t', e, st, ps, gd⟩ := upd (tag_mul False x False.elim) lv rv hr
    exact ⟨t', e, st, fun nn h => ps nn (tag_mul nn x h), fun nn a b h hA => gd nn a b (tag_mul nn x h) hA⟩
  | max lv rv =>
    obtain ⟨t', e, st, ps, gd⟩ := one (sel := Node.mx) (comb := max) (fun _ _ h => h) lv rv hr
    exact ⟨t', e, st, fun nn _ => ps nn, fun nn a b _ _ => gd nn a b⟩
  | min lv rv =>
    obtain ⟨t', e, st, ps, gd⟩ := one (sel := Node.mn) (comb := min) (fun _ h _ => h) lv rv hr
    exact ⟨t', e, st, fun nn _ => ps nn, fun nn a b _ _ => gd nn a b⟩
  | sum lv rv =>
    obtain ⟨t', e, st, ps, gd⟩ := one (sel := Node.sm) (comb := (· + ·)) (fun _ _ _ => rfl) lv rv hr
    exact ⟨t', e, st, fun nn _ => ps nn, fun nn a b _ _ => gd nn a b⟩

theorem runFrom_ok {fuel : Nat} (ops : List (Op α)) : ∀ {v : List α} (_ : v.length ≤ fuel)
    (_ : Fits (4 * v.length) 0 ((v.length : Int) - 1) 1) {t : Nat → Node α} (_ : St v t)
    (_ : ∀ op ∈ ops, Op.InRange v.length op),
    ∃ t', ops.foldlM (exec fuel) ⟨v.length, t⟩ = .ok ⟨v.length, t'⟩ ∧ (values v ops).length = v.length ∧
      St (values v ops) t' ∧
      ∀ nn, (nn → ∀ op ∈ ops, Op.NonNeg op) → Pos nn t → Pos nn t' ∧
        ∀ a b, (∀ op ∈ ops, Op.Respects a b op) →
        Good nn a b t 0 ((v.length : Int) - 1) 1 → Good nn a b t' 0 ((v.length : Int) - 1) 1 := by
  induction ops with
  | nil => intro v _ _ t hst _; exact ⟨t, rfl, rfl, hst, fun nn _ hp => ⟨hp, fun a b _ => id⟩⟩
  | cons op ops ih =>
    intro v hf hF t hst hr
    obtain ⟨t1, e, st, ps, gd⟩ := exec_ok hf hF hst op (hr op (by simp))
    have hl := length_apply v op
    obtain ⟨t2, e2, l2, st2, q⟩ := ih (v := apply v op) (by rw [hl]; exact hf) (by rw [hl]; exact hF) st
      (fun o ho => by rw [hl]; exact hr o (by simp [ho]))
    rw [hl] at e2 q l2
    refine ⟨t2, by rw [List.foldlM_cons, e, Out.ok_bind, e2], l2, st2, fun nn hn hp => ?_⟩
    obtain ⟨q1, q2⟩ := q nn (fun h o ho => hn h o (by simp [ho])) (ps nn (fun h => hn h op (by simp)) hp)
    exact ⟨q1, fun a b hR g => q2 a b (fun o ho => hR o (by simp [ho]))
      (gd nn a b (fun h => hn h op (by simp)) (hR op (by simp)) hp g)⟩

theorem run_ok {fuel : Nat} {v : List α} (hv : v ≠ []) (hf : v.length ≤ fuel)
    (hF : Fits (4 * v.length) 0 ((v.length : Int) - 1) 1) (ops : List (Op α))
    (hr : ∀ op ∈ ops, Op.InRange v.length op) :
    ∃ t, run fuel v ops = .ok ⟨v.length, t⟩ ∧ (values v ops).length = v.length ∧ St (values v ops) t ∧
      ∀ nn, (nn → ∀ op ∈ ops, Op.NonNeg op) → Pos nn t ∧ ∀ a b, (∀ op ∈ ops, Op.Respects a b op) →
        Good nn a b t 0 ((v.length : Int) - 1) 1 := by
  obtain ⟨t, e, st, _, ps, gd⟩ := build_ok fuel v hv hf
  obtain ⟨t', e', l', st', q⟩ := runFrom_ok ops hf hF st hr
  refine ⟨t', by rw [run, e, Out.ok_bind, e'], l', st', fun nn hn => ?_⟩
  obtain ⟨q1, q2⟩ := q nn hn (ps nn)
  exact ⟨q1, fun a b hR => q2 a b hR (gd nn a b)⟩

/-! ### aggregates of slices -/

theorem mem_slice {v : List α} {a b : Int} (hr : InRange v.length a b) (y : α) :
    y ∈ slice v a b ↔ ∃ p, a ≤ p ∧ p ≤ b ∧ y = val v p := by
  obtain ⟨r1, r2, r3⟩ := hr
  unfold slice
  rw [List.mem_iff_getElem?]
  constructor
  · rintro ⟨i, hi⟩
    rw [List.getElem?_take] at hi
    split at hi
    · rename_i h
      rw [List.getElem?_drop] at hi
      have := val_some v (p := a + i) (by omega) (by omega)
      rw [show (a + (i : Int)).toNat = a.toNat + i by omega, hi] at this
      exact ⟨a + i, by omega, by omega, by injection this⟩
    · cases hi
  · rintro ⟨p, p1, p2, rfl⟩
    refine ⟨(p - a).toNat, ?_⟩
    rw [List.getElem?_take, if_pos (by omega), List.getElem?_drop,
      show a.toNat + (p - a).toNat = p.toNat by omega]
    exact val_some v (by omega) (by omega)

theorem isMax_of {v : List α} {a b : Int} (hr : InRange v.length a b) {x : α} (h : IsMaxOn a b (val v) x) :
    IsMax v a b x := by
  refine ⟨(mem_slice hr x).2 h.1, fun y hy => ?_⟩
  obtain ⟨p, p1, p2, rfl⟩ := (mem_slice hr y).1 hy
  exact h.2 p p1 p2

theorem isMin_of {v : List α} {a b : Int} (hr : InRange v.length a b) {x : α} (h : IsMinOn a b (val v) x) :
    IsMin v a b x := by
  refine ⟨(mem_slice hr x).2 h.1, fun y hy => ?_⟩
  obtain ⟨p, p1, p2, rfl⟩ := (mem_slice hr y).1 hy
  exact h.2 p p1 p2

theorem sum_slice (v : List α) (a : Int) (ha : 0 ≤ a) : ∀ k : Nat, a + k ≤ v.length →
    ((v.drop a.toNat).take k).sum = ∑ p ∈ Finset.Ico a (a + k), val v p := by
  intro k
  induction k with
  | zero => intro _; simp
  | succ k ih =>
    intro h
    have hx := val_some v (p := a + k) (by omega) (by omega)
    have hico : Finset.Ico a (a + ((k + 1 : Nat) : Int)) = insert (a + (k : Int)) (Finset.Ico a (a + k)) := by
      ext p; simp only [Finset.mem_Ico, Finset.mem_insert]; omega
    rw [List.take_add_one, List.sum_append, ih (by omega), List.getElem?_drop,
      show a.toNat + k = (a + (k : Int)).toNat by omega, hx, hico, Finset.sum_insert (by simp)]
    simp [add_comm]

theorem isSum_of {v : List α} {a b : Int} (hr : InRange v.length a b) {x : α} (h : RSum a b (val v) x) :
    IsSum v a b x := by
  obtain ⟨r1, r2, r3⟩ := hr
  unfold IsSum slice
  rw [sum_slice v a r1 _ (by omega)]
  unfold RSum at h
  rw [h]
  refine Finset.sum_congr ?_ fun _ _ => rfl
  ext p; simp only [Finset.mem_Ico, Finset.mem_Icc]; omega

/-! ### sizes for which the vectors are long enough -/

/-- all leaves below `o` have numbers under `(o + 1) * 2 ^ K` -/
theorem fits_le {N : Nat} : ∀ (l r : Int) (o : Nat), l ≤ r → ∀ K : Nat, r - l + 1 ≤ (2 : Int) ^ K →
    2 * ((o + 1) * 2 ^ K) ≤ N → Fits N l r o := by
  have hlt : ∀ (o K : Nat), o + 1 ≤ (o + 1) * 2 ^ K := fun o K => Nat.le_mul_of_pos_right _ (Nat.two_pow_pos K)
  refine seg_ind ?_ ?_
  · intro l o K _ h
    rw [Fits, if_neg (by omega)]
    have := hlt o K; omega
  · intro l r o hlr hL hR K h1 h2
    obtain ⟨K, rfl⟩ : ∃ k, K = k + 1 := ⟨K - 1, by
      rcases K with _ | K
      · simp only [pow_zero] at h1; omega
      · omega⟩
    rw [pow_succ] at h1
    have e : (o + 1) * 2 ^ (K + 1) = (2 * o + 1 + 1) * 2 ^ K := by rw [pow_succ]; ring
    have e' : (2 * o + 1) * 2 ^ K ≤ (2 * o + 1 + 1) * 2 ^ K := Nat.mul_le_mul_right _ (by omega)
    rw [Fits, if_pos hlr]
    exact ⟨by have := hlt o (K + 1); omega, hL K (by omega) (by omega), hR K (by omega) (by omega)⟩

theorem fits_pred {N : Nat} : ∀ (k : Nat) (l r : Int) (o : Nat), 1 ≤ o → r - l + 1 = (2 : Int) ^ (k + 1) - 1 →
    2 * ((o + 1) * 2 ^ (k + 1) - 2) ≤ N → Fits N l r o := by
  intro k
  induction k with
  | zero =>
    intro l r o ho h1 h2
    norm_num at h1 h2
    rw [Fits, if_neg (by omega)]; omega
  | succ k ih =>
    intro l r o ho h1 h2
    have hk : (1 : Int) ≤ 2 ^ k := one_le_pow₀ (by norm_num)
    have hk' := Nat.two_pow_pos k
    have e : (o + 1) * 2 ^ (k + 1 + 1) = (2 * o + 1 + 1) * 2 ^ (k + 1) := by rw [pow_succ]; ring
    have e' : (2 * o + 1 + 1) * 2 ^ (k + 1) = (2 * o + 1) * 2 ^ (k + 1) + 2 ^ (k + 1) := by ring
    have e2 : 2 ^ (k + 1) = 2 * 2 ^ k := by rw [pow_succ]; ring
    have e3 : (2 : Int) ^ (k + 1) = 2 * 2 ^ k := by rw [pow_succ]; ring
    have e4 : (2 : Int) ^ (k + 1 + 1) = 2 * 2 ^ (k + 1) := by rw [pow_succ]; ring
    have e5 : o ≤ (2 * o + 1) * 2 ^ (k + 1) := by
      have := Nat.le_mul_of_pos_right (2 * o + 1) (Nat.two_pow_pos (k + 1)); omega
    rw [Fits, if_pos (by omega)]
    exact ⟨by omega, fits_le _ _ _ (by omega) (k + 1) (by omega) (by omega),
      ih _ _ _ (by omega) (by omega) (by omega)⟩

theorem fits_succ {N : Nat} : ∀ (k : Nat) (l r : Int) (o : Nat), 1 ≤ o → r - l + 1 = (2 : Int) ^ k + 1 →
    2 * (o * 2 ^ (k + 1) + 2) ≤ N → Fits N l r o := by
  intro k
  induction k with
  | zero =>
    intro l r o ho h1 h2
    norm_num at h1 h2
    rw [Fits, if_pos (by omega)]
    refine ⟨by omega, ?_, ?_⟩
    · rw [Fits, if_neg (by omega)]; omega
    · rw [Fits, if_neg (by omega)]; omega
  | succ k ih =>
    intro l r o ho h1 h2
    have hk : (1 : Int) ≤ 2 ^ k := one_le_pow₀ (by norm_num)
    have e3 : (2 : Int) ^ (k + 1) = 2 * 2 ^ k := by rw [pow_succ]; ring
    have e : o * 2 ^ (k + 1 + 1) = 2 * o * 2 ^ (k + 1) := by rw [pow_succ]; ring
    have e' : (2 * o + 1 + 1) * 2 ^ k = o * 2 ^ (k + 1) + 2 ^ (k + 1) := by rw [pow_succ]; ring
    have e5 : 2 ^ (k + 1) ≤ o * 2 ^ (k + 1) := Nat.le_mul_of_pos_left _ ho
    have e6 : 2 * o * 2 ^ (k + 1) = o * 2 ^ (k + 1) + o * 2 ^ (k + 1) := by ring
    have e7 : o ≤ o * 2 ^ (k + 1) := Nat.le_mul_of_pos_right o (Nat.two_pow_pos (k + 1))
    rw [Fits, if_pos (by omega)]
    exact ⟨by omega, ih _ _ _ (by omega) (by omega) (by omega), fits_le _ _ _ (by omega) k (by omega) (by omega)⟩

/-- The number of the leaf of position `p`. -/
def leafIdx (l r : Int) (o : Nat) (p : Int) : Nat :=
  if l < r then
    (if p ≤ (l + r) / 2 then leafIdx l ((l + r) / 2) (2 * o) p else leafIdx ((l + r) / 2 + 1) r (2 * o + 1) p)
  else o
termination_by (r - l).toNat
decreasing_by all_goals omega

theorem leafIdx_desc : ∀ (l r : Int) (o : Nat), l ≤ r → ∀ p, Desc o (leafIdx l r o p) := by
  refine seg_ind ?_ ?_
  · intro l o p; rw [leafIdx, if_neg (by omega)]; exact desc_self o
  · intro l r o hlr hL hR p
    rw [leafIdx, if_pos hlr]
    split
    · exact desc_of_left (hL p)
    · exact desc_of_right (hR p)

theorem leaf_base : ∀ (k : Nat) (l r : Int) (o : Nat), r - l + 1 = (2 : Int) ^ k + 1 →
    ∃ p, l ≤ p ∧ p ≤ r ∧ leafIdx l r o p = o * 2 ^ (k + 1) + 1 := by
  intro k
  induction k with
  | zero =>
    intro l r o h1
    norm_num at h1
    refine ⟨r, by omega, le_refl r, ?_⟩
    rw [leafIdx, if_pos (by omega), if_neg (by omega), leafIdx, if_neg (by omega)]; ring
  | succ k ih =>
    intro l r o h1
    have hk : (1 : Int) ≤ 2 ^ k := one_le_pow₀ (by norm_num)
    have e3 : (2 : Int) ^ (k + 1) = 2 * 2 ^ k := by rw [pow_succ]; ring
    obtain ⟨p, p1, p2, p3⟩ := ih l ((l + r) / 2) (2 * o) (by omega)
    refine ⟨p, p1, by omega, ?_⟩
    rw [leafIdx, if_pos (by omega), if_pos p2, p3]; ring

theorem leaf_far : ∀ (j : Nat) (l r : Int) (o : Nat), (2 : Int) ^ j < r - l + 1 → r - l + 1 < (2 : Int) ^ (j + 1) →
    ∃ p, l ≤ p ∧ p ≤ r ∧ ((o : Int) + 1) * 2 ^ (j + 1) + 2 * (r - l + 1) ≤ leafIdx l r o p + 2 * 2 ^ (j + 1) + 1 := by
  intro j
  induction j with
  | zero => intro l r o h1 h2; norm_num at h1 h2; omega
  | succ j ih =>
    intro l r o h1 h2
    have hk : (1 : Int) ≤ 2 ^ j := one_le_pow₀ (by norm_num)
    have e3 : (2 : Int) ^ (j + 1) = 2 * 2 ^ j := by rw [pow_succ]; ring
    have e4 : (2 : Int) ^ (j + 1 + 1) = 2 * 2 ^ (j + 1) := by rw [pow_succ]; ring
    by_cases c : r - l + 1 = (2 : Int) ^ (j + 1) + 1
    · obtain ⟨p, p1, p2, p3⟩ := leaf_base (j + 1) l r o c
      refine ⟨p, p1, p2, ?_⟩
      rw [p3, c]
      push_cast
      have : ((o : Int) + 1) * 2 ^ (j + 1 + 1) = o * 2 ^ (j + 1 + 1) + 2 ^ (j + 1 + 1) := by ring
      omega
    · obtain ⟨p, p1, p2, p3⟩ := ih ((l + r) / 2 + 1) r (2 * o + 1) (by omega) (by omega)
      refine ⟨p, by omega, p2, ?_⟩
      rw [leafIdx, if_pos (by omega), if_neg (by omega)]
      push_cast at p3 ⊢
      have : (2 * (o : Int) + 1 + 1) * 2 ^ (j + 1) = (o + 1) * 2 ^ (j + 1 + 1) := by rw [e4]; ring
      omega

theorem not_roomy {n : Nat} (hn : 1 ≤ n) (h : ∀ k : Nat, n + 1 ≠ 2 ^ k ∧ n ≠ 2 ^ k ∧ n ≠ 2 ^ k + 1) :
    ∃ p, 0 ≤ p ∧ p < (n : Int) ∧ 2 * n ≤ leafIdx 0 ((n : Int) - 1) 1 p := by
  obtain ⟨K, h1, h2⟩ := exists_pow n hn
  have a1 := h K
  rcases K with _ | _ | j
  · simp at h1 a1; omega
  · simp at h1 a1; omega
  have a2 := h (j + 1)
  have z1 : ((n : Nat) : Int) ≤ ((2 ^ (j + 1 + 1) : Nat) : Int) := by exact_mod_cast h1
  have z2 : ((2 ^ (j + 1 + 1) : Nat) : Int) < ((2 * n : Nat) : Int) := by exact_mod_cast h2
  have e4 : 2 ^ (j + 1 + 1) = 2 * 2 ^ (j + 1) := by rw [pow_succ]; ring
  have e5 : 2 ^ (j + 1) = 2 * 2 ^ j := by rw [pow_succ]; ring
  have hj := Nat.two_pow_pos j
  have big : 2 ^ (j + 1) + 2 ≤ n := by omega
  have big' : n + 2 ≤ 2 ^ (j + 1 + 1) := by omega
  have b1 : ((2 : Int) ^ (j + 1)) + 2 ≤ n := by exact_mod_cast big
  have b2 : (n : Int) + 2 ≤ 2 ^ (j + 1 + 1) := by exact_mod_cast big'
  have e4' : (2 : Int) ^ (j + 1 + 1) = 2 * 2 ^ (j + 1) := by rw [pow_succ]; ring
  have e5' : (2 : Int) ^ (j + 1) = 2 * 2 ^ j := by rw [pow_succ]; ring
  obtain ⟨p, p1, p2, p3⟩ := leaf_far j ((0 + ((n : Int) - 1)) / 2 + 1) ((n : Int) - 1) (2 * 1 + 1) (by omega) (by omega)
  refine ⟨p, by omega, by omega, ?_⟩
  rw [leafIdx, if_pos (by omega), if_neg (by omega)]
  generalize leafIdx _ _ (2 * 1 + 1) p = L at p3 ⊢
  push_cast at p3
  have : ((2 : Int) * 1 + 1 + 1) * 2 ^ (j + 1) = 4 * 2 ^ (j + 1) := by ring
  omega

/-! ### running out of bounds -/

theorem change_point (tag : Node α → Node α) (p : Int) (N : Nat) : ∀ (l r : Int) (o : Nat), l ≤ r →
    ∀ (fuel : Nat) (t : Nat → Node α), (r - l).toNat < fuel → 1 ≤ o → l ≤ p → p ≤ r → Room (4 * N) l r o →
    Clean t o → change tag p p fuel l r o ⟨N, t⟩ =
      .ok ⟨N, fun x => if x = leafIdx l r o p then tag (t x) else t x⟩ := by
  refine seg_ind ?_ ?_
  · intro l o fuel t hf ho h1 h2 hR hC
    obtain ⟨fuel, rfl⟩ : ∃ k, fuel = k + 1 := ⟨fuel - 1, by omega⟩
    rw [change, update_safe (t := ⟨N, t⟩) ho (.inr ⟨hR, hC⟩), Out.ok_bind, if_pos ⟨h2, h1⟩, upd_clean l l hC,
      at_ok (t := ⟨N, t⟩) (room_lt hR), Out.ok_bind, put_ok _ (room_lt hR), leafIdx, if_neg (by omega)]
    congr 2
    funext x
    by_cases e : x = o
    · simp [e]
    · simp [e]
  · intro l r o hlr hL hRt fuel t hf ho h1 h2 hR hC
    obtain ⟨fuel, rfl⟩ : ∃ k, fuel = k + 1 := ⟨fuel - 1, by omega⟩
    rw [change, update_safe (t := ⟨N, t⟩) ho (.inr ⟨hR, hC⟩), Out.ok_bind, if_neg (by omega), upd_clean l r hC,
      leafIdx, if_pos hlr]
    dsimp only
    rw [Room, if_pos hlr] at hR
    by_cases c : p ≤ (l + r) / 2
    · rw [if_pos c, hL fuel t (by omega) (by omega) h1 c hR.2.1 (clean_left hC), Out.ok_bind, if_neg (by omega),
        if_pos c]
    · rw [if_neg c, Out.ok_bind, if_pos (by omega),
        hRt fuel t (by omega) (by omega) (by omega) h2 hR.2.2 (clean_right hC), if_neg c]

theorem query_point_ub {sel : Node α → α} {comb : α → α → α} (p : Int) (N : Nat) : ∀ (l r : Int) (o : Nat), l ≤ r →
    ∀ (fuel : Nat) (t : Nat → Node α), (r - l).toNat < fuel → 1 ≤ o → l ≤ p → p ≤ r → Room (4 * N) l r o →
    (∀ x, Desc o x → x ≠ leafIdx l r o p → (t x).hasAdd = false ∧ (t x).hasMul = false) →
    (t (leafIdx l r o p)).hasAdd = true → (t (leafIdx l r o p)).hasMul = false → 2 * N ≤ leafIdx l r o p →
    query sel comb p p fuel l r o ⟨N, t⟩ = .ub := by
  refine seg_ind ?_ ?_
  · intro l o fuel t hf ho h1 h2 hR hC
    obtain ⟨fuel, rfl⟩ : ∃ k, fuel = k + 1 := ⟨fuel - 1, by omega⟩
    rw [leafIdx, if_neg (by omega)]
    intro ha hm hN
    have hR' := room_lt hR
    have n1 : ¬ 2 * o = o := by omega
    have n2 : ¬ 2 * o + 1 = o := by omega
    have big : ¬ 2 * o < 4 * N := by omega
    have : update ⟨N, t⟩ o l l = .ub := by
      unfold update
      rw [at_ok (t := ⟨N, t⟩) hR', Out.ok_bind]
      simp only [hm, Bool.false_eq_true, if_false, Out.ok_bind]
      rw [at_ok (t := ⟨N, t⟩) hR', Out.ok_bind]
      simp only [ha, if_true]
      rw [put_ok (t := ⟨N, t⟩) _ hR', Out.ok_bind]
      simp only [Seg.at, big, if_false]
      rfl
    rw [query, this]; rfl
  · intro l r o hlr hL hRt fuel t hf ho h1 h2 hR
    obtain ⟨fuel, rfl⟩ : ∃ k, fuel = k + 1 := ⟨fuel - 1, by omega⟩
    have hR' := room_lt hR
    rw [Room, if_pos hlr] at hR
    have hup : ∀ (h : (t o).hasAdd = false ∧ (t o).hasMul = false), update ⟨N, t⟩ o l r = .ok ⟨N, t⟩ := by
      intro h
      unfold update
      rw [at_ok (t := ⟨N, t⟩) hR', Out.ok_bind]
      simp only [h.2, Bool.false_eq_true, if_false, Out.ok_bind]
      rw [at_ok (t := ⟨N, t⟩) hR', Out.ok_bind]
      simp [h.1]
    rw [leafIdx, if_pos hlr]
    by_cases c : p ≤ (l + r) / 2
    · rw [if_pos c]
      intro hC ha hm hN
      have dne : o ≠ leafIdx l ((l + r) / 2) (2 * o) p := by
        have := desc_le (leafIdx_desc l ((l + r) / 2) (2 * o) (by omega) p); omega
      rw [query, hup (hC o (desc_self o) dne), Out.ok_bind, if_neg (by omega)]
      dsimp only
      rw [if_pos c]
      exact hL fuel t (by omega) (by omega) h1 c hR.2.1 (fun x hx => hC x (desc_of_left hx)) ha hm hN
    · rw [if_neg c]
      intro hC ha hm hN
      have dne : o ≠ leafIdx ((l + r) / 2 + 1) r (2 * o + 1) p := by
        have := desc_le (leafIdx_desc ((l + r) / 2 + 1) r (2 * o + 1) (by omega) p); omega
      rw [query, hup (hC o (desc_self o) dne), Out.ok_bind, if_neg (by omega)]
      dsimp only
      rw [if_neg c, if_pos (by omega)]
      exact hRt fuel t (by omega) (by omega) (by omega) h2 hR.2.2 (fun x hx => hC x (desc_of_right hx)) ha hm hN

theorem run_ub {fuel : Nat} {v : List α} (hv : v ≠ []) (hf : v.length ≤ fuel)
    (h : ∀ k : Nat, v.length + 1 ≠ 2 ^ k ∧ v.length ≠ 2 ^ k ∧ v.length ≠ 2 ^ k + 1) :
    ∃ p, InRange v.length p p ∧ ∀ x, run fuel v [.add p p x, .sum p p] = .ub := by
  have hl : 1 ≤ v.length := by cases v with | nil => exact absurd rfl hv | cons => simp
  obtain ⟨p, p1, p2, p3⟩ := not_roomy hl h
  refine ⟨p, ⟨p1, le_refl p, p2⟩, fun x => ?_⟩
  obtain ⟨t, e, st, c, _⟩ := build_ok fuel v hv hf
  have hR := room_root hl
  rw [run, e, Out.ok_bind, List.foldlM_cons]
  simp only [exec, addInterval]
  rw [change_point _ p v.length 0 _ 1 (by omega) fuel t (by omega) (le_refl 1) p1 (by omega) hR c, Out.ok_bind,
    List.foldlM_cons]
  simp only [exec, querySum]
  have hd := leafIdx_desc 0 ((v.length : Int) - 1) 1 (by omega) p
  rw [query_point_ub p v.length 0 _ 1 (by omega) fuel _ (by omega) (le_refl 1) p1 (by omega) hR
    (fun y hy ne => by rw [if_neg ne]; exact c y hy) (by rw [if_pos rfl])
    (by rw [if_pos rfl]; exact (c _ hd).2) p3]
  rfl

theorem roomy_fits {n : Nat} (h : ∃ k : Nat, n + 1 = 2 ^ (k + 1) ∨ n = 2 ^ k ∨ n = 2 ^ k + 1) :
    Fits (4 * n) 0 ((n : Int) - 1) 1 := by
  obtain ⟨k, h | h | h⟩ := h
  · have : (n : Int) + 1 = 2 ^ (k + 1) := by exact_mod_cast h
    exact fits_pred k _ _ _ (le_refl 1) (by omega) (by omega)
  · have : (n : Int) = 2 ^ k := by exact_mod_cast h
    have := Nat.two_pow_pos k
    exact fits_le _ _ _ (by omega) k (by omega) (by omega)
  · have : (n : Int) = 2 ^ k + 1 := by exact_mod_cast h
    exact fits_succ k _ _ _ (le_refl 1) (by omega) (by rw [pow_succ]; omega)

end SegmentTree
