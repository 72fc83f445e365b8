import Verif.Proof.SegmentTreeDbl
import Verif.Proof.RandomDouble
import Verif.Proof.GeometryDouble
import Verif.Spec.SegmentTreeInt

/-! # Lemmas about segment trees of doubles: sums, extremes and whole numbers -/

set_option exponentiation.threshold 2000

namespace SegmentTree
open Cpp Stats

/-! ## Sums -/

theorem pow_u_le {c : Nat} (h : c ≤ 2 ^ 24) : (1 + u) ^ c ≤ 1 + c * u + (c * u) ^ 2 := by
  induction c with
  | zero => simp
  | succ c ih =>
    have hc : (c : ℚ) ≤ 2 ^ 24 := by exact_mod_cast (by omega : c ≤ 2 ^ 24)
    have hc0 : (0 : ℚ) ≤ c := Nat.cast_nonneg c
    have hu := u_pos
    have hcu : (c : ℚ) * u ≤ 1 := by
      unfold u
      rw [mul_one_div, div_le_iff₀ (by norm_num)]
      linarith [show (2 : ℚ) ^ 24 ≤ 1 * 2 ^ 53 by norm_num]
    have h1 := ih (by omega)
    rw [pow_succ]
    push_cast
    have h2 : (1 + u) ^ c * (1 + u) ≤ (1 + c * u + (c * u) ^ 2) * (1 + u) := mul_le_mul_of_nonneg_right h1 (by linarith)
    refine h2.trans ?_
    have h3 : (c * u) * (c * u * u) ≤ 1 * (c * u * u) := mul_le_mul_of_nonneg_right hcu (by positivity)
    nlinarith [mul_pos hu hu]

theorem pow_u_le' {c : Nat} (h : c ≤ 2 ^ 24) : (1 + u) ^ c - 1 ≤ (c + 1) * u := by
  have h1 := pow_u_le h
  have hc : (c : ℚ) ≤ 2 ^ 24 := by exact_mod_cast h
  have hc0 : (0 : ℚ) ≤ c := Nat.cast_nonneg c
  have hu := u_pos
  have h2 : (c : ℚ) * (c * u) ≤ 1 := by
    have : (c : ℚ) * c ≤ 2 ^ 24 * 2 ^ 24 := mul_le_mul hc hc hc0 (by norm_num)
    unfold u
    rw [mul_one_div, ← mul_div_assoc, div_le_iff₀ (by norm_num)]
    linarith [show (2 : ℚ) ^ 24 * 2 ^ 24 ≤ 1 * 2 ^ 53 by norm_num]
  nlinarith

/-- `x` is a sum of the numbers with prefix sums `S` (and `B` for the absolute values) from `lo` to `hi` with `c` roundings. -/
def SumErr (S B : Int → ℚ) (c : Nat) (lo hi : Int) (x : Dbl) : Prop :=
  ∃ z, x = .fin z ∧ fl z = z ∧ |z - (S hi - S lo)| ≤ ((1 + u) ^ c - 1) * (B hi - B lo)

theorem pow_u_mono {c d : Nat} (h : c ≤ d) : (1 + u) ^ c ≤ (1 + u) ^ d :=
  pow_le_pow_right₀ (by linarith [u_pos]) h

theorem SumErr.mono {S B : Int → ℚ} {c d : Nat} {lo hi : Int} {x : Dbl} (h : SumErr S B c lo hi x) (hcd : c ≤ d)
    (hB : B lo ≤ B hi) : SumErr S B d lo hi x := by
  obtain ⟨z, h1, h2, h3⟩ := h
  exact ⟨z, h1, h2, h3.trans (mul_le_mul_of_nonneg_right (by linarith [pow_u_mono hcd]) (by linarith))⟩

theorem SumErr.add {S B : Int → ℚ} {c : Nat} {lo m hi : Int} {x y : Dbl} (hx : SumErr S B c lo m x) (hy : SumErr S B c m hi y)
    (hc : c ≤ 2 ^ 24) (h1 : |S m - S lo| ≤ B m - B lo) (h2 : |S hi - S m| ≤ B hi - B m) (hB : B hi - B lo ≤ 2 ^ 1023) :
    SumErr S B (c + 1) lo hi (x + y) := by
  obtain ⟨z, rfl, z2, z3⟩ := hx
  obtain ⟨w, rfl, w2, w3⟩ := hy
  have hu := u_pos
  have hz : |z| ≤ (1 + u) ^ c * (B m - B lo) := by
    have := abs_add_le (z - (S m - S lo)) (S m - S lo)
    rw [sub_add_cancel] at this
    linarith
  have hw : |w| ≤ (1 + u) ^ c * (B hi - B m) := by
    have := abs_add_le (w - (S hi - S m)) (S hi - S m)
    rw [sub_add_cancel] at this
    linarith
  have hzw : |z + w| ≤ (1 + u) ^ c * (B hi - B lo) := by
    have := abs_add_le z w
    nlinarith
  have hT : 0 ≤ B hi - B lo := by linarith [abs_nonneg (S m - S lo), abs_nonneg (S hi - S m)]
  have hfin : |z + w| ≤ Rand.maxDouble := by
    refine hzw.trans ?_
    have h3 := pow_u_le' hc
    have hc' : (c : ℚ) ≤ 2 ^ 24 := by exact_mod_cast hc
    have h4 : (1 + u) ^ c ≤ 3 / 2 := by
      have : ((c : ℚ) + 1) * u ≤ 1 / 2 := by
        unfold u
        rw [mul_one_div, div_le_iff₀ (by norm_num)]
        linarith [show (2 : ℚ) ^ 24 + 1 ≤ 1 / 2 * 2 ^ 53 by norm_num]
      linarith
    calc (1 + u) ^ c * (B hi - B lo) ≤ 3 / 2 * 2 ^ 1023 := mul_le_mul h4 hB hT (by norm_num)
      _ ≤ Rand.maxDouble := by unfold Rand.maxDouble; norm_num
  refine ⟨fl (z + w), Rand.round_fin hfin, fl_idem _, ?_⟩
  have h5 := fl_add_rel z2 w2
  have h6 : |fl (z + w) - (S hi - S lo)| ≤ |fl (z + w) - (z + w)| + (|z - (S m - S lo)| + |w - (S hi - S m)|) := by
    have e : fl (z + w) - (S hi - S lo) = (fl (z + w) - (z + w)) + ((z - (S m - S lo)) + (w - (S hi - S m))) := by ring
    rw [e]
    exact (abs_add_le _ _).trans (by linarith [abs_add_le (z - (S m - S lo)) (w - (S hi - S m))])
  have h7 : u * |z + w| ≤ u * ((1 + u) ^ c * (B hi - B lo)) := mul_le_mul_of_nonneg_left hzw hu.le
  rw [pow_succ]
  generalize (1 + u) ^ c = p at *
  nlinarith

/-- the depth of a tree over `l..r` -/
def depth (l r : Int) : Nat := Nat.clog 2 (r - l + 1).toNat

theorem depth_left {l r : Int} (h : l < r) : depth l ((l + r) / 2) + 1 = depth l r := by
  unfold depth
  rw [Nat.clog_of_two_le (n := (r - l + 1).toNat) (by norm_num) (by omega)]
  congr 2
  omega

theorem depth_right {l r : Int} (h : l < r) : depth ((l + r) / 2 + 1) r + 1 ≤ depth l r := by
  rw [← depth_left h]
  unfold depth
  exact Nat.add_le_add_right (Nat.clog_mono_right 2 (by omega)) 1

theorem depth_le {l r : Int} (h0 : 0 ≤ l) (h : r < 2 ^ 31) : depth l r ≤ 31 := by
  unfold depth
  refine (Nat.clog_mono_right 2 (by omega : (r - l + 1).toNat ≤ 2 ^ 31)).trans ?_
  rw [Nat.clog_pow _ _ (by norm_num)]

theorem sum_ok {v : List Dbl} {a b : Int} {S B : Int → ℚ} {N : Nat} {t : Nat → Node Dbl} {fuel : Nat}
    (hr : Spec.InRange N a b) (hN : N ≤ 2 ^ 31) (hf : N ≤ fuel)
    (hC : ∀ x, (t x).hasAdd = false ∧ (t x).hasMul = false)
    (hH : ∀ P : Int → Int → Node Dbl → Prop,
        (∀ (p : Int) (x : Dbl) (nd : Node Dbl), 0 ≤ p → p < N → v[p.toNat]? = some x →
          P p p { nd with mn := x, mx := x, sm := x, hasAdd := false, hasMul := false }) →
        (∀ (l r : Int) (a b nd : Node Dbl), 0 ≤ l → l < r → r < N → P l ((l + r) / 2) a → P ((l + r) / 2 + 1) r b →
          P l r { nd with mn := stdMin a.mn b.mn, mx := stdMax a.mx b.mx, sm := a.sm + b.sm }) →
        Hold P t 0 ((N : Int) - 1) 1)
    (hS : ∀ p : Int, a ≤ p → p ≤ b → v[p.toNat]? = some (.fin (S (p + 1) - S p)) ∧ fl (S (p + 1) - S p) = S (p + 1) - S p)
    (hSB : ∀ l r : Int, 0 ≤ l → l ≤ r → |S r - S l| ≤ B r - B l) (hB : B (b + 1) - B a ≤ 2 ^ 1023) :
    ∃ x, querySumD fuel ⟨N, t⟩ a b = .ok (⟨N, t⟩, x) ∧ SumErr S B (depth 0 ((N : Int) - 1)) a (b + 1) x := by
  obtain ⟨r1, r2, r3⟩ := hr
  have hmono : ∀ l r : Int, 0 ≤ l → l ≤ r → B l ≤ B r := fun l r h0 h => by linarith [hSB l r h0 h, abs_nonneg (S r - S l)]
  have hin : ∀ l r : Int, a ≤ l → l ≤ r → r ≤ b + 1 → B r - B l ≤ 2 ^ 1023 := fun l r h1 h2 h3 => by
    have := hmono a l r1 h1
    have := hmono r (b + 1) (by omega) h3
    linarith
  have key := queryD_ok (P := fun l r nd => 0 ≤ l → r < N → a ≤ l → r ≤ b → SumErr S B (depth l r) l (r + 1) nd.sm)
    (R := fun l r x => 0 ≤ l → r < N → SumErr S B (depth l r) (max a l) (min b r + 1) x) (sel := Node.sm) (comb := (· + ·))
    (a := a) (b := b) (N := N) (t := t) hC ?_ ?_ ?_ ?_ r2 0 ((N : Int) - 1) 1 (by omega) fuel (by omega) (room_root (by omega))
    (by omega) (by omega) ?_
  · obtain ⟨x, e, h⟩ := key
    have := h le_rfl (by omega)
    rw [max_eq_left r1, min_eq_left (by omega)] at this
    exact ⟨x, e, this⟩
  · intro l r nd hlr h1 h2 h h3 h4
    rw [max_eq_right h1, min_eq_right h2]
    exact h h3 h4 h1 h2
  · intro l r x hlr h1 h2 h4 h h5 h6
    have := h h5 (by omega)
    rw [min_eq_left (by omega)] at this ⊢
    exact this.mono (by have := depth_left hlr; omega) (hmono _ _ (by omega) (by omega))
  · intro l r x hlr h1 h2 h h5 h6
    have := h (by omega) h6
    rw [max_eq_left (by omega)] at this ⊢
    exact this.mono (by have := depth_right hlr; omega) (hmono _ _ (by omega) (by omega))
  · intro l r x y hlr h1 h2 hx hy h5 h6
    have e1 := hx h5 (by omega)
    have e2 := hy (by omega) h6
    rw [min_eq_right (by omega)] at e1
    rw [max_eq_right (by omega)] at e2
    have hd := depth_left hlr
    have hd2 := depth_right hlr
    have e2' := e2.mono (show _ ≤ depth l ((l + r) / 2) by omega) (hmono _ _ (by omega) (by omega))
    rw [← hd]
    have := depth_le h5 (show (l + r) / 2 < 2 ^ 31 by omega)
    exact e1.add e2' (by omega) (hSB _ _ (by omega) (by omega)) (hSB _ _ (by omega) (by omega))
      (hin _ _ (by omega) (by omega) (by omega))
  · refine hH _ ?_ ?_
    · intro p x nd h1 h2 h3 h4 h5 h6 h7
      obtain ⟨g1, g2⟩ := hS p h6 h7
      rw [g1] at h3
      injection h3 with h3
      refine ⟨S (p + 1) - S p, h3.symm, g2, ?_⟩
      have : depth p p = 0 := by unfold depth; simp
      rw [this]; simp
    · intro l r x y nd h1 h2 h3 hx hy h4 h5 h6 h7
      have e1 := hx h4 (by omega) h6 (by omega)
      have e2 := hy (by omega) h5 (by omega) h7
      have hd := depth_left h2
      have hd2 := depth_right h2
      have e2' := e2.mono (show _ ≤ depth l ((l + r) / 2) by omega) (hmono _ _ (by omega) (by omega))
      rw [← hd]
      have := depth_le h4 (show (l + r) / 2 < 2 ^ 31 by omega)
      exact e1.add e2' (by omega) (hSB _ _ (by omega) (by omega)) (hSB _ _ (by omega) (by omega))
        (hin _ _ (by omega) (by omega) (by omega))

theorem take_sum_sub {q : List ℚ} {i j : Nat} (h : i ≤ j) : (q.take j).sum - (q.take i).sum = ((q.drop i).take (j - i)).sum := by
  have : q.take j = q.take i ++ (q.drop i).take (j - i) := by
    rw [← List.take_add]; congr 1; omega
  rw [this, List.sum_append]; ring

theorem abs_sum_le (q : List ℚ) : |q.sum| ≤ (q.map abs).sum := by
  induction q with
  | nil => simp
  | cons x q ih => simp only [List.sum_cons, List.map_cons]; exact (abs_add_le _ _).trans (by linarith)

/-- prefix sums of the elements of the slice, shifted to the positions of the array -/
theorem slice_prefix {v : List Dbl} {a b : Int} (hr : Spec.InRange v.length a b) {qs : List ℚ}
    (hq : Spec.slice v a b = qs.map Dbl.fin) (p : Int) (h1 : a ≤ p) (h2 : p ≤ b) :
    ∃ h : (p - a).toNat < qs.length, v[p.toNat]? = some (.fin qs[(p - a).toNat]) := by
  obtain ⟨r1, r2, r3⟩ := hr
  have e : (Spec.slice v a b)[(p - a).toNat]? = v[p.toNat]? := by
    unfold Spec.slice
    rw [List.getElem?_take_of_lt (by omega), List.getElem?_drop]
    congr 1; omega
  have hl : qs.length = (b - a + 1).toNat := by
    have := congrArg List.length hq
    unfold Spec.slice at this
    rw [List.length_take, List.length_drop, List.length_map] at this
    omega
  refine ⟨by omega, ?_⟩
  rw [← e, hq, List.getElem?_map, List.getElem?_eq_getElem (by omega)]
  rfl

/-! ## Extremes -/

theorem dbl_le_refl {x : Dbl} (h : x ≠ .nan) : x ≤ x := by
  cases x with
  | nan => exact absurd rfl h
  | inf s => cases s <;> rfl
  | fin q => exact decide_eq_true (le_refl q)

theorem dbl_le_trans {x y z : Dbl} (h1 : x ≤ y) (h2 : y ≤ z) : x ≤ z := by
  change Dbl.le _ _ = true at *
  rcases x with _ | s | p <;> rcases y with _ | s' | q <;> rcases z with _ | s'' | r <;> simp_all [Dbl.le]
  all_goals first
    | exact le_trans h1 h2
    | (cases s <;> simp_all)

theorem dbl_total {x y : Dbl} (hx : x ≠ .nan) (hy : y ≠ .nan) (h : ¬ x < y) : y ≤ x := by
  change ¬ (Dbl.lt _ _ = true) at h
  change Dbl.le _ _ = true
  rw [Bool.not_eq_true] at h
  rcases x with _ | s | p <;> rcases y with _ | s' | q <;> simp only [Dbl.le, Dbl.lt, ne_eq, not_true_eq_false] at *
  · cases s <;> cases s' <;> simp_all
  · simp_all
  · simp_all
  · simpa using h

theorem dbl_lt_le {x y : Dbl} (h : x < y) : x ≤ y := by
  change (Dbl.lt _ _ = true) at h
  change Dbl.le _ _ = true
  rcases x with _ | s | p <;> rcases y with _ | s' | q <;> simp_all [Dbl.le, Dbl.lt]
  exact h.le

/-- `x` is greatest among the elements at `l..r` -/
def Top (v : List Dbl) (l r : Int) (x : Dbl) : Prop :=
  (∃ p : Int, l ≤ p ∧ p ≤ r ∧ v[p.toNat]? = some x) ∧ ∀ (p : Int) y, l ≤ p → p ≤ r → v[p.toNat]? = some y → y ≤ x

def Bot (v : List Dbl) (l r : Int) (x : Dbl) : Prop :=
  (∃ p : Int, l ≤ p ∧ p ≤ r ∧ v[p.toNat]? = some x) ∧ ∀ (p : Int) y, l ≤ p → p ≤ r → v[p.toNat]? = some y → x ≤ y

theorem Top.join {v : List Dbl} {l m r : Int} {x y : Dbl} (hl : l ≤ m + 1) (_ : m ≤ r)
    (hn : ∀ (p : Int), l ≤ p → p ≤ r → v[p.toNat]? ≠ some .nan) (hx : Top v l m x) (hy : Top v (m + 1) r y) :
    Top v l r (stdMax x y) := by
  obtain ⟨⟨p, p1, p2, p3⟩, hx⟩ := hx
  obtain ⟨⟨p', p1', p2', p3'⟩, hy⟩ := hy
  have nx : x ≠ .nan := fun e => hn p p1 (by omega) (e ▸ p3)
  have ny : y ≠ .nan := fun e => hn p' (by omega) p2' (e ▸ p3')
  unfold stdMax
  split
  · rename_i hc
    refine ⟨⟨p', by omega, p2', p3'⟩, fun k z h1 h2 h3 => ?_⟩
    by_cases hk : k ≤ m
    · exact dbl_le_trans (hx k z h1 hk h3) (dbl_lt_le hc)
    · exact hy k z (by omega) h2 h3
  · rename_i hc
    refine ⟨⟨p, p1, by omega, p3⟩, fun k z h1 h2 h3 => ?_⟩
    by_cases hk : k ≤ m
    · exact hx k z h1 hk h3
    · exact dbl_le_trans (hy k z (by omega) h2 h3) (dbl_total nx ny hc)

theorem Bot.join {v : List Dbl} {l m r : Int} {x y : Dbl} (hl : l ≤ m + 1) (_ : m ≤ r)
    (hn : ∀ (p : Int), l ≤ p → p ≤ r → v[p.toNat]? ≠ some .nan) (hx : Bot v l m x) (hy : Bot v (m + 1) r y) :
    Bot v l r (stdMin x y) := by
  obtain ⟨⟨p, p1, p2, p3⟩, hx⟩ := hx
  obtain ⟨⟨p', p1', p2', p3'⟩, hy⟩ := hy
  have nx : x ≠ .nan := fun e => hn p p1 (by omega) (e ▸ p3)
  have ny : y ≠ .nan := fun e => hn p' (by omega) p2' (e ▸ p3')
  unfold stdMin
  split
  · rename_i hc
    refine ⟨⟨p', by omega, p2', p3'⟩, fun k z h1 h2 h3 => ?_⟩
    by_cases hk : k ≤ m
    · exact dbl_le_trans (dbl_lt_le hc) (hx k z h1 hk h3)
    · exact hy k z (by omega) h2 h3
  · rename_i hc
    refine ⟨⟨p, p1, by omega, p3⟩, fun k z h1 h2 h3 => ?_⟩
    by_cases hk : k ≤ m
    · exact hx k z h1 hk h3
    · exact dbl_le_trans (dbl_total ny nx hc) (hy k z (by omega) h2 h3)

theorem leaf_top {v : List Dbl} {p : Int} {x : Dbl} (hx : v[p.toNat]? = some x) (hn : v[p.toNat]? ≠ some .nan) :
    Top v p p x ∧ Bot v p p x := by
  have nx : x ≠ .nan := fun e => hn (e ▸ hx)
  refine ⟨⟨⟨p, le_rfl, le_rfl, hx⟩, fun k y h1 h2 h3 => ?_⟩, ⟨p, le_rfl, le_rfl, hx⟩, fun k y h1 h2 h3 => ?_⟩
  all_goals
    obtain rfl : k = p := by omega
    rw [hx] at h3
    injection h3 with h3
    rw [← h3]
    exact dbl_le_refl nx

theorem ext_ok {v : List Dbl} {a b : Int} {N : Nat} {t : Nat → Node Dbl} {fuel : Nat}
    (hr : Spec.InRange N a b) (hf : N ≤ fuel)
    (hC : ∀ x, (t x).hasAdd = false ∧ (t x).hasMul = false)
    (hH : ∀ P : Int → Int → Node Dbl → Prop,
        (∀ (p : Int) (x : Dbl) (nd : Node Dbl), 0 ≤ p → p < N → v[p.toNat]? = some x →
          P p p { nd with mn := x, mx := x, sm := x, hasAdd := false, hasMul := false }) →
        (∀ (l r : Int) (a b nd : Node Dbl), 0 ≤ l → l < r → r < N → P l ((l + r) / 2) a → P ((l + r) / 2 + 1) r b →
          P l r { nd with mn := stdMin a.mn b.mn, mx := stdMax a.mx b.mx, sm := a.sm + b.sm }) →
        Hold P t 0 ((N : Int) - 1) 1)
    (hn : ∀ (p : Int), a ≤ p → p ≤ b → v[p.toNat]? ≠ some .nan) :
    (∃ x, queryMaxD fuel ⟨N, t⟩ a b = .ok (⟨N, t⟩, x) ∧ Top v a b x) ∧
    ∃ x, queryMinD fuel ⟨N, t⟩ a b = .ok (⟨N, t⟩, x) ∧ Bot v a b x := by
  obtain ⟨r1, r2, r3⟩ := hr
  have hold := hH (fun l r nd => a ≤ l → r ≤ b → Top v l r nd.mx ∧ Bot v l r nd.mn)
    (fun p x nd h1 h2 h3 h4 h5 => leaf_top h3 (hn p h4 h5))
    (fun l r x y nd h1 h2 h3 hx hy h4 h5 => by
      have e1 := hx h4 (by omega)
      have e2 := hy (by omega) h5
      exact ⟨e1.1.join (by omega) (by omega) (fun p q1 q2 => hn p (by omega) (by omega)) e2.1,
        e1.2.join (by omega) (by omega) (fun p q1 q2 => hn p (by omega) (by omega)) e2.2⟩)
  constructor
  · have key := queryD_ok (P := fun l r nd => a ≤ l → r ≤ b → Top v l r nd.mx ∧ Bot v l r nd.mn)
      (R := fun l r x => Top v (max a l) (min b r) x) (sel := Node.mx) (comb := stdMax)
      (a := a) (b := b) (N := N) (t := t) hC ?_ ?_ ?_ ?_ r2 0 ((N : Int) - 1) 1 (by omega) fuel (by omega) (room_root (by omega))
      (by omega) (by omega) hold
    · obtain ⟨x, e, h⟩ := key
      rw [max_eq_left r1, min_eq_left (by omega)] at h
      exact ⟨x, e, h⟩
    · intro l r nd hlr h1 h2 h
      rw [max_eq_right h1, min_eq_right h2]
      exact (h h1 h2).1
    · intro l r x hlr h1 h2 h4 h
      rw [min_eq_left (by omega)] at h ⊢
      exact h
    · intro l r x hlr h1 h2 h
      rw [max_eq_left (by omega)] at h ⊢
      exact h
    · intro l r x y hlr h1 h2 hx hy
      rw [min_eq_right (by omega)] at hx
      rw [max_eq_right (by omega)] at hy
      exact hx.join (by omega) (by omega) (fun p q1 q2 => hn p (by omega) (by omega)) hy
  · have key := queryD_ok (P := fun l r nd => a ≤ l → r ≤ b → Top v l r nd.mx ∧ Bot v l r nd.mn)
      (R := fun l r x => Bot v (max a l) (min b r) x) (sel := Node.mn) (comb := stdMin)
      (a := a) (b := b) (N := N) (t := t) hC ?_ ?_ ?_ ?_ r2 0 ((N : Int) - 1) 1 (by omega) fuel (by omega) (room_root (by omega))
      (by omega) (by omega) hold
    · obtain ⟨x, e, h⟩ := key
      rw [max_eq_left r1, min_eq_left (by omega)] at h
      exact ⟨x, e, h⟩
    · intro l r nd hlr h1 h2 h
      rw [max_eq_right h1, min_eq_right h2]
      exact (h h1 h2).2
    · intro l r x hlr h1 h2 h4 h
      rw [min_eq_left (by omega)] at h ⊢
      exact h
    · intro l r x hlr h1 h2 h
      rw [max_eq_left (by omega)] at h ⊢
      exact h
    · intro l r x y hlr h1 h2 hx hy
      rw [min_eq_right (by omega)] at hx
      rw [max_eq_right (by omega)] at hy
      exact hx.join (by omega) (by omega) (fun p q1 q2 => hn p (by omega) (by omega)) hy

theorem mem_sliceD {v : List Dbl} {a b : Int} (hr : Spec.InRange v.length a b) (y : Dbl) :
    y ∈ Spec.slice v a b ↔ ∃ p : Int, a ≤ p ∧ p ≤ b ∧ v[p.toNat]? = some y := by
  obtain ⟨r1, r2, r3⟩ := hr
  unfold Spec.slice
  rw [List.mem_iff_getElem?]
  constructor
  · rintro ⟨i, hi⟩
    by_cases h : i < (b - a + 1).toNat
    · rw [List.getElem?_take_of_lt h, List.getElem?_drop] at hi
      refine ⟨a + i, by omega, by omega, ?_⟩
      rw [← hi]; congr 1; omega
    · rw [List.getElem?_take, if_neg h] at hi
      cases hi
  · rintro ⟨p, p1, p2, p3⟩
    refine ⟨(p - a).toNat, ?_⟩
    rw [List.getElem?_take_of_lt (by omega), List.getElem?_drop, ← p3]
    congr 1; omega

end SegmentTree
