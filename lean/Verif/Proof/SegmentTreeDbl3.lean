import Verif.Proof.SegmentTreeDbl2

/-! # Lemmas about segment trees of doubles: whole numbers give the results of `SegmentTree<int>` -/

namespace SegmentTree
open Cpp

/-- an integer as a double -/
def toD (x : Int) : Dbl := .fin (x : ℚ)

def castN (nd : Node Int) : Node Dbl := ⟨toD nd.mn, toD nd.mx, toD nd.sm, toD nd.add, toD nd.mul, nd.hasAdd, nd.hasMul⟩

def castS (t : Seg Int) : Seg Dbl := ⟨t.size, fun o => castN (t.node o)⟩

theorem toD_add {x y z : Int} (h : int (x + y) = .ok z) : toD x + toD y = toD z := by
  obtain ⟨h1, rfl⟩ := int_eq_ok.1 h
  have hI : INT_MIN = -2147483648 ∧ INT_MAX = 2147483647 := ⟨rfl, rfl⟩
  have h2 : |x + y| ≤ 2 ^ 53 := by rw [abs_le]; unfold IsInt at h1; constructor <;> omega
  have := Geo.round_int h2
  push_cast at this
  show Dbl.round ((x : ℚ) + y) = _
  rw [this]
  unfold toD
  push_cast
  rfl

theorem toD_mul {x y z : Int} (h : int (x * y) = .ok z) : toD x * toD y = toD z := by
  obtain ⟨h1, rfl⟩ := int_eq_ok.1 h
  have hI : INT_MIN = -2147483648 ∧ INT_MAX = 2147483647 := ⟨rfl, rfl⟩
  have h2 : |x * y| ≤ 2 ^ 53 := by rw [abs_le]; unfold IsInt at h1; constructor <;> omega
  have := Geo.round_int h2
  push_cast at this
  show Dbl.round ((x : ℚ) * y) = _
  rw [this]
  unfold toD
  push_cast
  rfl

theorem toD_cast {x : Int} (h : |x| ≤ 2 ^ 53) : ((x : Int) : Dbl) = toD x := Geo.round_int h

theorem toD_lt {x y : Int} : toD x < toD y ↔ x < y := by
  show decide ((x : ℚ) < y) = true ↔ _
  simp

theorem stdMin_toD (x y : Int) : stdMin (toD x) (toD y) = toD (min x y) := by
  unfold stdMin
  rw [if_congr (toD_lt (x := y) (y := x)) rfl rfl]
  by_cases h : y < x
  · rw [if_pos h, min_eq_right h.le]
  · rw [if_neg h, min_eq_left (not_lt.1 h)]

theorem stdMax_toD (x y : Int) : stdMax (toD x) (toD y) = toD (max x y) := by
  unfold stdMax
  rw [if_congr (toD_lt (x := x) (y := y)) rfl rfl]
  by_cases h : x < y
  · rw [if_pos h, max_eq_right h.le]
  · rw [if_neg h, max_eq_left (not_lt.1 h)]

theorem at_cast {t : Seg Int} {o : Nat} {nd : Node Int} (h : t.at o = .ok nd) : (castS t).at o = .ok (castN nd) := by
  unfold Seg.at at *
  split at h
  · rename_i hc
    injection h with h
    subst h
    exact if_pos hc
  · cases h

theorem put_cast {t s : Seg Int} {o : Nat} {nd : Node Int} (h : t.put o nd = .ok s) :
    (castS t).put o (castN nd) = .ok (castS s) := by
  unfold Seg.put at *
  split at h
  · rename_i hc
    injection h with h
    subst h
    refine (if_pos hc).trans ?_
    congr 1
    unfold castS
    congr 1
    funext x
    dsimp only
    split <;> rfl
  · cases h

theorem segPut_size {α : Type} {t s : Seg α} {o : Nat} {nd : Node α} (h : t.put o nd = .ok s) : s.size = t.size := by
  unfold Seg.put at h
  split at h
  · injection h with h; subst h; rfl
  · cases h

theorem elemAt_cast {v : List Int} {l x : Int} (h : elemAt v l = .ok x) : elemAt (v.map toD) l = .ok (toD x) := by
  unfold elemAt at *
  split at h
  · rename_i hc
    rw [if_pos hc, List.getElem?_map]
    cases hv : v[l.toNat]? with
    | none => rw [hv] at h; cases h
    | some y => rw [hv] at h; injection h with h; subst h; rfl
  · cases h

theorem init_cast (v : List Int) : ∀ (fuel : Nat) (l r : Int) (o : Nat) (t s : Seg Int),
    initI v fuel l r o t = .ok s → initD (v.map toD) fuel l r o (castS t) = .ok (castS s) := by
  intro fuel
  induction fuel with
  | zero => intro l r o t s h; cases h
  | succ fuel ih =>
    intro l r o t s h
    rw [initI] at h
    rw [initD]
    split at h
    · rename_i hc
      rw [if_pos hc]
      obtain ⟨x, e1, h⟩ := Out.bind_eq_ok.1 h
      obtain ⟨nd, e2, h⟩ := Out.bind_eq_ok.1 h
      rw [elemAt_cast e1, Out.ok_bind, at_cast e2, Out.ok_bind]
      exact put_cast h
    · rename_i hc
      rw [if_neg hc]
      obtain ⟨t1, e1, h⟩ := Out.bind_eq_ok.1 h
      obtain ⟨t2, e2, h⟩ := Out.bind_eq_ok.1 h
      obtain ⟨a, e3, h⟩ := Out.bind_eq_ok.1 h
      obtain ⟨b, e4, h⟩ := Out.bind_eq_ok.1 h
      obtain ⟨nd, e5, h⟩ := Out.bind_eq_ok.1 h
      obtain ⟨z, e6, h⟩ := Out.bind_eq_ok.1 h
      dsimp only
      rw [ih _ _ _ _ _ e1, Out.ok_bind, ih _ _ _ _ _ e2, Out.ok_bind, at_cast e3, Out.ok_bind, at_cast e4, Out.ok_bind,
        at_cast e5, Out.ok_bind]
      refine Eq.trans ?_ (put_cast h)
      congr 1
      unfold castN
      dsimp only
      rw [stdMin_toD, stdMax_toD, toD_add e6]

theorem initI_size (v : List Int) : ∀ (fuel : Nat) (l r : Int) (o : Nat) (t s : Seg Int),
    initI v fuel l r o t = .ok s → s.size = t.size := by
  intro fuel
  induction fuel with
  | zero => intro l r o t s h; cases h
  | succ fuel ih =>
    intro l r o t s h
    rw [initI] at h
    split at h
    · obtain ⟨x, e1, h⟩ := Out.bind_eq_ok.1 h
      obtain ⟨nd, e2, h⟩ := Out.bind_eq_ok.1 h
      exact segPut_size h
    · obtain ⟨t1, e1, h⟩ := Out.bind_eq_ok.1 h
      obtain ⟨t2, e2, h⟩ := Out.bind_eq_ok.1 h
      obtain ⟨a, e3, h⟩ := Out.bind_eq_ok.1 h
      obtain ⟨b, e4, h⟩ := Out.bind_eq_ok.1 h
      obtain ⟨nd, e5, h⟩ := Out.bind_eq_ok.1 h
      obtain ⟨z, e6, h⟩ := Out.bind_eq_ok.1 h
      exact (segPut_size h).trans ((ih _ _ _ _ _ e2).trans (ih _ _ _ _ _ e1))

theorem build_cast {fuel : Nat} {v : List Int} {t : Seg Int} (h : buildI fuel v = .ok t) :
    buildD fuel (v.map toD) = .ok (castS t) ∧ t.size = v.length := by
  refine ⟨?_, initI_size _ _ _ _ _ _ _ h⟩
  unfold buildI at h
  unfold buildD
  rw [List.length_map]
  refine Eq.trans ?_ (init_cast _ _ _ _ _ _ _ h)
  have : (v.map toD).headD ((0 : Int) : Dbl) = toD (v.headD 0) := by
    cases v with
    | nil => exact toD_cast (by norm_num)
    | cons x v => rfl
  rw [this]
  rfl

theorem pushMul_cast {m : Int} {c d : Node Int} (h : pushMulI m c = .ok d) : pushMulD (toD m) (castN c) = castN d := by
  obtain ⟨x, e1, h⟩ := Out.bind_eq_ok.1 h
  obtain ⟨y, e2, h⟩ := Out.bind_eq_ok.1 h
  injection h with h
  subst h
  have h1 : (if (castN c).hasMul then (castN c).mul * toD m else toD m) = toD x := by
    change (if c.hasMul then toD c.mul * toD m else toD m) = toD x
    cases hm : c.hasMul <;> rw [hm] at e1
    · injection e1 with e1; subst e1; rfl
    · exact toD_mul e1
  have h2 : (if (castN c).hasAdd then (castN c).add * toD m else (castN c).add) = toD y := by
    change (if c.hasAdd then toD c.add * toD m else toD c.add) = toD y
    cases hm : c.hasAdd <;> rw [hm] at e2
    · injection e2 with e2; subst e2; rfl
    · exact toD_mul e2
  unfold pushMulD
  rw [h1, h2]
  rfl

theorem pushAdd_cast {m : Int} {c d : Node Int} (h : pushAddI m c = .ok d) : pushAddD (toD m) (castN c) = castN d := by
  obtain ⟨x, e1, h⟩ := Out.bind_eq_ok.1 h
  injection h with h
  subst h
  have h1 : (if (castN c).hasAdd then (castN c).add + toD m else toD m) = toD x := by
    change (if c.hasAdd then toD c.add + toD m else toD m) = toD x
    cases hm : c.hasAdd <;> rw [hm] at e1
    · injection e1 with e1; subst e1; rfl
    · exact toD_add e1
  unfold pushAddD
  rw [h1]
  rfl

theorem updateMul_cast {t s : Seg Int} {o : Nat} {nd : Node Int} (h : updateMulI t o nd = .ok s) :
    updateMulD (castS t) o (castN nd) = .ok (castS s) ∧ s.size = t.size := by
  obtain ⟨mn, e1, h⟩ := Out.bind_eq_ok.1 h
  obtain ⟨mx, e2, h⟩ := Out.bind_eq_ok.1 h
  obtain ⟨sm, e3, h⟩ := Out.bind_eq_ok.1 h
  obtain ⟨t1, e4, h⟩ := Out.bind_eq_ok.1 h
  obtain ⟨c1, e5, h⟩ := Out.bind_eq_ok.1 h
  obtain ⟨d1, e6, h⟩ := Out.bind_eq_ok.1 h
  obtain ⟨t2, e7, h⟩ := Out.bind_eq_ok.1 h
  obtain ⟨c2, e8, h⟩ := Out.bind_eq_ok.1 h
  obtain ⟨d2, e9, h⟩ := Out.bind_eq_ok.1 h
  refine ⟨?_, (segPut_size h).trans ((segPut_size e7).trans (segPut_size e4))⟩
  have g := put_cast e4
  unfold updateMulD
  have e : (⟨(castN nd).mn * (castN nd).mul, (castN nd).mx * (castN nd).mul, (castN nd).sm * (castN nd).mul, (castN nd).add,
      (castN nd).mul, (castN nd).hasAdd, false⟩ : Node Dbl) = castN { nd with hasMul := false, mn := mn, mx := mx, sm := sm } := by
    unfold castN
    dsimp only
    rw [toD_mul e1, toD_mul e2, toD_mul e3]
  rw [e, g, Out.ok_bind, at_cast e5, Out.ok_bind]
  rw [show pushMulD (castN nd).mul (castN c1) = castN d1 from pushMul_cast e6, put_cast e7, Out.ok_bind, at_cast e8, Out.ok_bind,
    show pushMulD (castN nd).mul (castN c2) = castN d2 from pushMul_cast e9]
  exact put_cast h

theorem updateAdd_cast {t s : Seg Int} {o : Nat} {l r : Int} {nd : Node Int} (hlr : |r - l + 1| ≤ 2 ^ 53)
    (h : updateAddI t o l r nd = .ok s) : updateAddD (castS t) o l r (castN nd) = .ok (castS s) ∧ s.size = t.size := by
  obtain ⟨mn, e1, h⟩ := Out.bind_eq_ok.1 h
  obtain ⟨mx, e2, h⟩ := Out.bind_eq_ok.1 h
  obtain ⟨al, e0, h⟩ := Out.bind_eq_ok.1 h
  obtain ⟨sm, e3, h⟩ := Out.bind_eq_ok.1 h
  obtain ⟨t1, e4, h⟩ := Out.bind_eq_ok.1 h
  obtain ⟨c1, e5, h⟩ := Out.bind_eq_ok.1 h
  obtain ⟨d1, e6, h⟩ := Out.bind_eq_ok.1 h
  obtain ⟨t2, e7, h⟩ := Out.bind_eq_ok.1 h
  obtain ⟨c2, e8, h⟩ := Out.bind_eq_ok.1 h
  obtain ⟨d2, e9, h⟩ := Out.bind_eq_ok.1 h
  refine ⟨?_, (segPut_size h).trans ((segPut_size e7).trans (segPut_size e4))⟩
  have g := put_cast e4
  unfold updateAddD
  have e : (⟨(castN nd).mn + (castN nd).add, (castN nd).mx + (castN nd).add,
      (castN nd).sm + (castN nd).add * ((r - l + 1 : Int) : Dbl), (castN nd).add,
      (castN nd).mul, false, (castN nd).hasMul⟩ : Node Dbl) =
      castN { nd with hasAdd := false, mn := mn, mx := mx, sm := sm } := by
    unfold castN
    dsimp only
    rw [toD_add e1, toD_add e2, toD_cast hlr, toD_mul e0, toD_add e3]
  rw [e, g, Out.ok_bind, at_cast e5, Out.ok_bind]
  rw [show pushAddD (castN nd).add (castN c1) = castN d1 from pushAdd_cast e6, put_cast e7, Out.ok_bind, at_cast e8, Out.ok_bind,
    show pushAddD (castN nd).add (castN c2) = castN d2 from pushAdd_cast e9]
  exact put_cast h

theorem update_cast {t s : Seg Int} {o : Nat} {l r : Int} (hlr : |r - l + 1| ≤ 2 ^ 53)
    (h : updateI t o l r = .ok s) : updateD (castS t) o l r = .ok (castS s) ∧ s.size = t.size := by
  obtain ⟨nd, e1, h⟩ := Out.bind_eq_ok.1 h
  obtain ⟨t1, e2, h⟩ := Out.bind_eq_ok.1 h
  obtain ⟨nd', e3, h⟩ := Out.bind_eq_ok.1 h
  have h1 : (if (castN nd).hasMul then updateMulD (castS t) o (castN nd) else .ok (castS t)) = .ok (castS t1) ∧ t1.size = t.size := by
    change (if nd.hasMul then updateMulD (castS t) o (castN nd) else .ok (castS t)) = .ok (castS t1) ∧ _
    cases hm : nd.hasMul <;> rw [hm] at e2
    · injection e2 with e2; subst e2; exact ⟨rfl, rfl⟩
    · exact updateMul_cast e2
  have h2 : (if (castN nd').hasAdd then updateAddD (castS t1) o l r (castN nd') else .ok (castS t1)) = .ok (castS s) ∧
      s.size = t1.size := by
    change (if nd'.hasAdd then updateAddD (castS t1) o l r (castN nd') else .ok (castS t1)) = .ok (castS s) ∧ _
    cases hm : nd'.hasAdd <;> rw [hm] at h
    · injection h with h; subst h; exact ⟨rfl, rfl⟩
    · exact updateAdd_cast hlr h
  refine ⟨?_, h2.2.trans h1.2⟩
  unfold updateD
  rw [at_cast e1, Out.ok_bind, h1.1, Out.ok_bind, at_cast e3, Out.ok_bind, h2.1]

theorem query_cast {sel : Node Int → Int} {selD : Node Dbl → Dbl} (hs : ∀ nd, selD (castN nd) = toD (sel nd))
    {C : Int → Int → Out Int} {c : Dbl → Dbl → Dbl} (hC : ∀ x y z, C x y = .ok z → c (toD x) (toD y) = toD z) (lv rv : Int) :
    ∀ (fuel : Nat) (l r : Int) (o : Nat) (t s : Seg Int) (x : Int), 0 ≤ l → l ≤ r + 1 → r < 2 ^ 31 →
    queryI sel C lv rv fuel l r o t = .ok (s, x) →
    queryD selD c lv rv fuel l r o (castS t) = .ok (castS s, toD x) ∧ s.size = t.size := by
  intro fuel
  induction fuel with
  | zero => intro l r o t s x _ _ _ h; cases h
  | succ fuel ih =>
    intro l r o t s x h0 hlr hr h
    rw [queryI] at h
    obtain ⟨t1, e1, h⟩ := Out.bind_eq_ok.1 h
    have hb : |r - l + 1| ≤ 2 ^ 53 := by rw [abs_le]; omega
    obtain ⟨u1, u2⟩ := update_cast hb e1
    rw [queryD, u1, Out.ok_bind]
    split at h
    · rename_i hc
      obtain ⟨nd, e2, h⟩ := Out.bind_eq_ok.1 h
      injection h with h
      injection h with h h'
      subst h; subst h'
      rw [if_pos hc, at_cast e2, Out.ok_bind, hs]
      exact ⟨rfl, u2⟩
    · rename_i hc
      rw [if_neg hc]
      dsimp only at h ⊢
      split at h
      · rename_i c1
        rw [if_pos c1]
        obtain ⟨k1, k2⟩ := ih _ _ _ _ _ _ h0 (by omega) (by omega) h
        exact ⟨k1, k2.trans u2⟩
      · rename_i c1
        rw [if_neg c1]
        split at h
        · rename_i c2
          rw [if_pos c2]
          obtain ⟨k1, k2⟩ := ih _ _ _ _ _ _ (by omega) (by omega) (by omega) h
          exact ⟨k1, k2.trans u2⟩
        · rename_i c2
          rw [if_neg c2]
          obtain ⟨⟨t2, y⟩, e2, h⟩ := Out.bind_eq_ok.1 h
          obtain ⟨⟨t3, z⟩, e3, h⟩ := Out.bind_eq_ok.1 h
          obtain ⟨w, e4, h⟩ := Out.bind_eq_ok.1 h
          injection h with h
          injection h with h h'
          subst h; subst h'
          obtain ⟨k1, k2⟩ := ih _ _ _ _ _ _ h0 (by omega) (by omega) e2
          obtain ⟨j1, j2⟩ := ih _ _ _ _ _ _ (by omega) (by omega) (by omega) e3
          rw [k1, Out.ok_bind]
          dsimp only
          rw [j1, Out.ok_bind]
          dsimp only
          rw [hC _ _ _ e4]
          exact ⟨rfl, j2.trans (k2.trans u2)⟩

theorem change_cast {tag : Node Int → Node Int} {tagD : Node Dbl → Node Dbl} (hs : ∀ nd, tagD (castN nd) = castN (tag nd)) (lv rv : Int) :
    ∀ (fuel : Nat) (l r : Int) (o : Nat) (t s : Seg Int), 0 ≤ l → l ≤ r + 1 → r < 2 ^ 31 →
    changeI tag lv rv fuel l r o t = .ok s →
    changeD tagD lv rv fuel l r o (castS t) = .ok (castS s) ∧ s.size = t.size := by
  intro fuel
  induction fuel with
  | zero => intro l r o t s _ _ _ h; cases h
  | succ fuel ih =>
    intro l r o t s h0 hlr hr h
    rw [changeI] at h
    obtain ⟨t1, e1, h⟩ := Out.bind_eq_ok.1 h
    have hb : |r - l + 1| ≤ 2 ^ 53 := by rw [abs_le]; omega
    obtain ⟨u1, u2⟩ := update_cast hb e1
    rw [changeD, u1, Out.ok_bind]
    split at h
    · rename_i hc
      obtain ⟨nd, e2, h⟩ := Out.bind_eq_ok.1 h
      rw [if_pos hc, at_cast e2, Out.ok_bind, hs]
      exact ⟨put_cast h, (segPut_size h).trans u2⟩
    · rename_i hc
      rw [if_neg hc]
      dsimp only at h ⊢
      obtain ⟨t2, e2, h⟩ := Out.bind_eq_ok.1 h
      have h1 : (if lv ≤ (l + r) / 2 then changeD tagD lv rv fuel l ((l + r) / 2) (2 * o) (castS t1) else .ok (castS t1)) =
          .ok (castS t2) ∧ t2.size = t1.size := by
        split at e2
        · rename_i c1
          rw [if_pos c1]
          exact ih _ _ _ _ _ h0 (by omega) (by omega) e2
        · rename_i c1
          rw [if_neg c1]
          injection e2 with e2; subst e2; exact ⟨rfl, rfl⟩
      rw [h1.1, Out.ok_bind]
      split at h
      · rename_i c1
        rw [if_pos c1]
        obtain ⟨k1, k2⟩ := ih _ _ _ _ _ (by omega) (by omega) (by omega) h
        exact ⟨k1, k2.trans (h1.2.trans u2)⟩
      · rename_i c1
        rw [if_neg c1]
        injection h with h; subst h; exact ⟨rfl, h1.2.trans u2⟩

theorem max_cast {fuel : Nat} {t s : Seg Int} {a b x : Int} (hn : t.size ≤ 2 ^ 31) (h : queryMaxI fuel t a b = .ok (s, x)) :
    queryMaxD fuel (castS t) a b = .ok (castS s, toD x) ∧ s.size = t.size :=
  query_cast (fun _ => rfl) (fun x y z e => by injection e with e; subst e; exact stdMax_toD x y) a b fuel 0
    ((t.size : Int) - 1) _ _ _ _ le_rfl (by omega) (by omega) h

theorem min_cast {fuel : Nat} {t s : Seg Int} {a b x : Int} (hn : t.size ≤ 2 ^ 31) (h : queryMinI fuel t a b = .ok (s, x)) :
    queryMinD fuel (castS t) a b = .ok (castS s, toD x) ∧ s.size = t.size :=
  query_cast (fun _ => rfl) (fun x y z e => by injection e with e; subst e; exact stdMin_toD x y) a b fuel 0
    ((t.size : Int) - 1) _ _ _ _ le_rfl (by omega) (by omega) h

theorem sum_cast {fuel : Nat} {t s : Seg Int} {a b x : Int} (hn : t.size ≤ 2 ^ 31) (h : querySumI fuel t a b = .ok (s, x)) :
    querySumD fuel (castS t) a b = .ok (castS s, toD x) ∧ s.size = t.size :=
  query_cast (fun _ => rfl) (fun x y z e => toD_add e) a b fuel 0 ((t.size : Int) - 1) _ _ _ _ le_rfl (by omega) (by omega) h

theorem exec_cast {fuel : Nat} {t s : Seg Int} {op : Op Int} (hn : t.size ≤ 2 ^ 31) (h : execI fuel t op = .ok s) :
    execD fuel (castS t) (Spec.Op.map toD op) = .ok (castS s) ∧ s.size = t.size := by
  cases op with
  | add lv rv x =>
    exact change_cast (tagD := fun nd => { nd with add := toD x, hasAdd := true }) (fun _ => rfl) lv rv fuel 0
      ((t.size : Int) - 1) _ _ _ le_rfl (by omega) (by omega) h
  | mul lv rv x =>
    exact change_cast (tagD := fun nd => { nd with mul := toD x, hasMul := true }) (fun _ => rfl) lv rv fuel 0
      ((t.size : Int) - 1) _ _ _ le_rfl (by omega) (by omega) h
  | max lv rv =>
    obtain ⟨⟨t', x⟩, e, h⟩ := Out.bind_eq_ok.1 h
    injection h with h; subst h
    obtain ⟨k1, k2⟩ := max_cast hn e
    refine ⟨?_, k2⟩
    show (do let (t, _) ← queryMaxD fuel (castS t) lv rv; Out.ok t) = _
    rw [k1]; rfl
  | min lv rv =>
    obtain ⟨⟨t', x⟩, e, h⟩ := Out.bind_eq_ok.1 h
    injection h with h; subst h
    obtain ⟨k1, k2⟩ := min_cast hn e
    refine ⟨?_, k2⟩
    show (do let (t, _) ← queryMinD fuel (castS t) lv rv; Out.ok t) = _
    rw [k1]; rfl
  | sum lv rv =>
    obtain ⟨⟨t', x⟩, e, h⟩ := Out.bind_eq_ok.1 h
    injection h with h; subst h
    obtain ⟨k1, k2⟩ := sum_cast hn e
    refine ⟨?_, k2⟩
    show (do let (t, _) ← querySumD fuel (castS t) lv rv; Out.ok t) = _
    rw [k1]; rfl

theorem run_cast {fuel : Nat} {v : List Int} {ops : List (Op Int)} {t : Seg Int} (hn : v.length ≤ 2 ^ 31)
    (h : runI fuel v ops = .ok t) :
    runD fuel (v.map toD) (ops.map (Spec.Op.map toD)) = .ok (castS t) ∧ t.size = v.length := by
  obtain ⟨t0, e, h'⟩ := Out.bind_eq_ok.1 h
  clear h
  rename' h' => h
  obtain ⟨k1, k2⟩ := build_cast e
  unfold runD
  rw [k1, Out.ok_bind]
  rw [← k2] at hn ⊢
  clear e k1 k2
  induction ops generalizing t0 with
  | nil => injection h with h; subst h; exact ⟨rfl, rfl⟩
  | cons op ops ih =>
    rw [List.foldlM_cons] at h
    obtain ⟨t1, e1, h⟩ := Out.bind_eq_ok.1 h
    obtain ⟨j1, j2⟩ := exec_cast hn e1
    rw [List.map_cons, List.foldlM_cons, j1, Out.ok_bind]
    obtain ⟨m1, m2⟩ := ih t1 (by omega) h
    exact ⟨m1, m2.trans j2⟩

end SegmentTree
