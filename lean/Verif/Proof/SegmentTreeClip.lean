import Verif.Proof.SegmentTree
import Verif.Spec.SegmentTreeClip

/-! # Intervals that reach over the ends, and intervals without positions -/

namespace SegmentTree
open Cpp Spec

section ring
variable {α : Type} [CommRing α]

/-! ### clipping -/

theorem query_clip {sel : Node α → α} {comb : α → α → α} {lv rv n : Int} (hv : lv ≤ rv) : ∀ (fuel : Nat) (l r : Int) (o : Nat)
    (t : Seg α), 0 ≤ l → l ≤ r → r < n → lv ≤ r → l ≤ rv →
    query sel comb lv rv fuel l r o t = query sel comb (max lv 0) (min rv (n - 1)) fuel l r o t := by
  intro fuel
  induction fuel with
  | zero => intro l r o t _ _ _ _ _; rfl
  | succ fuel ih =>
    intro l r o t h0 hlr hr h1 h2
    rw [query, query]
    congr 1
    funext t'
    by_cases hc : lv ≤ l ∧ rv ≥ r
    · rw [if_pos hc, if_pos (by omega)]
    · rw [if_neg hc, if_neg (show ¬ (max lv 0 ≤ l ∧ min rv (n - 1) ≥ r) by omega)]
      dsimp only
      by_cases c1 : rv ≤ (l + r) / 2
      · rw [if_pos c1, if_pos (by omega)]
        exact ih _ _ _ _ h0 (by omega) (by omega) (by omega) h2
      · rw [if_neg c1, if_neg (show ¬ min rv (n - 1) ≤ (l + r) / 2 by omega)]
        by_cases c2 : lv > (l + r) / 2
        · rw [if_pos c2, if_pos (by omega)]
          exact ih _ _ _ _ (by omega) (by omega) hr h1 (by omega)
        · rw [if_neg c2, if_neg (show ¬ max lv 0 > (l + r) / 2 by omega), ih _ _ _ _ h0 (by omega) (by omega) (by omega) h2]
          congr 1
          funext x
          rw [ih _ _ _ _ (by omega) (by omega) hr h1 (by omega)]

theorem change_clip {tag : Node α → Node α} {lv rv n : Int} (hv : lv ≤ rv) : ∀ (fuel : Nat) (l r : Int) (o : Nat)
    (t : Seg α), 0 ≤ l → l ≤ r → r < n → lv ≤ r → l ≤ rv →
    change tag lv rv fuel l r o t = change tag (max lv 0) (min rv (n - 1)) fuel l r o t := by
  intro fuel
  induction fuel with
  | zero => intro l r o t _ _ _ _ _; rfl
  | succ fuel ih =>
    intro l r o t h0 hlr hr h1 h2
    rw [change, change]
    congr 1
    funext t'
    by_cases hc : lv ≤ l ∧ rv ≥ r
    · rw [if_pos hc, if_pos (by omega)]
    · rw [if_neg hc, if_neg (show ¬ (max lv 0 ≤ l ∧ min rv (n - 1) ≥ r) by omega)]
      dsimp only
      have e1 : (if lv ≤ (l + r) / 2 then change tag lv rv fuel l ((l + r) / 2) (2 * o) t' else .ok t') =
          (if max lv 0 ≤ (l + r) / 2 then change tag (max lv 0) (min rv (n - 1)) fuel l ((l + r) / 2) (2 * o) t' else .ok t') := by
        by_cases c : lv ≤ (l + r) / 2
        · rw [if_pos c, if_pos (by omega)]
          exact ih _ _ _ _ h0 (by omega) (by omega) (by omega) h2
        · rw [if_neg c, if_neg (show ¬ max lv 0 ≤ (l + r) / 2 by omega)]
      rw [e1]
      congr 1
      funext t1
      by_cases c : rv > (l + r) / 2
      · rw [if_pos c, if_pos (by omega)]
        exact ih _ _ _ _ (by omega) (by omega) hr h1 (by omega)
      · rw [if_neg c, if_neg (show ¬ min rv (n - 1) > (l + r) / 2 by omega)]

/-! ### intervals without positions -/

/-- undefined, or a tree of the same size -/
def Sized (n : Nat) (x : Out (Seg α)) : Prop := x = .ub ∨ ∃ t, x = .ok t ∧ t.size = n

omit [CommRing α] in
theorem sized_put {n : Nat} {t : Seg α} (ht : t.size = n) (o : Nat) (nd : Node α) : Sized n (t.put o nd) := by
  unfold Seg.put
  split
  · exact .inr ⟨_, rfl, ht⟩
  · exact .inl rfl

omit [CommRing α] in
theorem sized_bind {n : Nat} {x : Out (Seg α)} {f : Seg α → Out (Seg α)} (h : Sized n x) (hf : ∀ t, t.size = n → Sized n (f t)) :
    Sized n (x >>= f) := by
  rcases h with rfl | ⟨t, rfl, ht⟩
  · exact .inl rfl
  · exact hf t ht

omit [CommRing α] in
theorem sized_at {n : Nat} {t : Seg α} {o : Nat} {f : Node α → Out (Seg α)} (hf : ∀ nd, Sized n (f nd)) :
    Sized n (t.at o >>= f) := by
  unfold Seg.at
  split
  · exact hf _
  · exact .inl rfl

theorem sized_update {n : Nat} {t : Seg α} (ht : t.size = n) (o : Nat) (l r : Int) : Sized n (update t o l r) := by
  unfold update
  refine sized_at fun nd => sized_bind ?_ fun t ht => sized_at fun nd => ?_
  · split
    · exact sized_bind (sized_put ht _ _) fun t ht => sized_at fun c => sized_bind (sized_put ht _ _) fun t ht =>
        sized_at fun c => sized_put ht _ _
    · exact .inr ⟨t, rfl, ht⟩
  · split
    · exact sized_bind (sized_put ht _ _) fun t ht => sized_at fun c => sized_bind (sized_put ht _ _) fun t ht =>
        sized_at fun c => sized_put ht _ _
    · exact .inr ⟨t, rfl, ht⟩

theorem update_over {t : Seg α} {o : Nat} (h : 4 * t.size ≤ o) (l r : Int) : update t o l r = .ub := by
  unfold update Seg.at
  rw [if_neg (by omega)]
  rfl

/-- A path that never ends at a covered node runs out of the vectors. -/
theorem query_lost {sel : Node α → α} {comb : α → α → α} {lv rv : Int} {n : Nat} (P : Int → Int → Prop)
    (hc : ∀ l r, P l r → ¬ (lv ≤ l ∧ rv ≥ r))
    (hl : ∀ l r, P l r → rv ≤ (l + r) / 2 → P l ((l + r) / 2))
    (hr : ∀ l r, P l r → ¬ rv ≤ (l + r) / 2 → lv > (l + r) / 2 ∧ P ((l + r) / 2 + 1) r) :
    ∀ (fuel : Nat) (l r : Int) (o : Nat) (t : Seg α), t.size = n → 1 ≤ o → 4 * n < fuel + o → 1 ≤ fuel → P l r →
      query sel comb lv rv fuel l r o t = .ub := by
  intro fuel
  induction fuel with
  | zero => intro l r o t _ _ _ h; omega
  | succ fuel ih =>
    intro l r o t ht ho hf _ hP
    rw [query]
    rcases sized_update ht o l r with e | ⟨t', e, ht'⟩
    · rw [e]; rfl
    · by_cases hn : 4 * n ≤ o
      · rw [update_over (by omega)]; rfl
      · rw [e, Out.ok_bind, if_neg (hc l r hP)]
        dsimp only
        by_cases c1 : rv ≤ (l + r) / 2
        · rw [if_pos c1]
          exact ih _ _ _ _ ht' (by omega) (by omega) (by omega) (hl l r hP c1)
        · obtain ⟨c2, hP'⟩ := hr l r hP c1
          rw [if_neg c1, if_pos c2]
          exact ih _ _ _ _ ht' (by omega) (by omega) (by omega) hP'

theorem query_empty {sel : Node α → α} {comb : α → α → α} {lv rv : Int} {fuel : Nat} {t : Seg α} (hn : 1 ≤ t.size)
    (hf : 4 * t.size < fuel) (h : rv < lv ∨ rv < 0 ∨ (t.size : Int) < lv) :
    query sel comb lv rv fuel 0 ((t.size : Int) - 1) 1 t = .ub := by
  by_cases h1 : rv < lv
  · exact query_lost (n := t.size) (fun l r => l ≤ r ∨ (l = r + 1 ∧ l ≤ rv)) (fun l r H => by omega) (fun l r H c => by omega)
      (fun l r H c => by omega) fuel _ _ _ t rfl (le_refl 1) (by omega) (by omega) (by omega)
  · rcases (by omega : rv < 0 ∨ (t.size : Int) < lv) with h2 | h2
    · exact query_lost (n := t.size) (fun l r => l = 0 ∧ 0 ≤ r) (fun l r H => by omega) (fun l r H c => by omega)
        (fun l r H c => by omega) fuel _ _ _ t rfl (le_refl 1) (by omega) (by omega) (by omega)
    · exact query_lost (n := t.size) (fun l r => l ≤ t.size ∧ r = (t.size : Int) - 1) (fun l r H => by omega)
        (fun l r H c => by omega) (fun l r H c => by omega) fuel _ _ _ t rfl (le_refl 1) (by omega) (by omega) (by omega)

theorem change_lost_left {tag : Node α → Node α} {lv rv : Int} {n : Nat} (h1 : lv ≤ 0) (h2 : rv < 0) :
    ∀ (fuel : Nat) (r : Int) (o : Nat) (t : Seg α), t.size = n → 1 ≤ o → 4 * n < fuel + o → 1 ≤ fuel → 0 ≤ r →
      change tag lv rv fuel 0 r o t = .ub := by
  intro fuel
  induction fuel with
  | zero => intro r o t _ _ _ h; omega
  | succ fuel ih =>
    intro r o t ht ho hf _ hr
    rw [change]
    rcases sized_update ht o 0 r with e | ⟨t', e, ht'⟩
    · rw [e]; rfl
    · by_cases hn : 4 * n ≤ o
      · rw [update_over (by omega)]; rfl
      · rw [e, Out.ok_bind, if_neg (by omega)]
        dsimp only
        rw [if_pos (by omega), ih _ _ _ ht' (by omega) (by omega) (by omega) (by omega)]
        rfl

theorem change_lost_right {tag : Node α → Node α} {lv rv : Int} {n : Nat} (h1 : (n : Int) < lv) (h2 : (n : Int) ≤ rv) :
    ∀ (fuel : Nat) (l : Int) (o : Nat) (t : Seg α), t.size = n → 1 ≤ o → 4 * n < fuel + o → 1 ≤ fuel → l ≤ n →
      change tag lv rv fuel l ((n : Int) - 1) o t = .ub := by
  intro fuel
  induction fuel with
  | zero => intro r o t _ _ _ h; omega
  | succ fuel ih =>
    intro l o t ht ho hf _ hl
    rw [change]
    rcases sized_update ht o l ((n : Int) - 1) with e | ⟨t', e, ht'⟩
    · rw [e]; rfl
    · by_cases hn : 4 * n ≤ o
      · rw [update_over (by omega)]; rfl
      · rw [e, Out.ok_bind, if_neg (by omega)]
        dsimp only
        rw [if_neg (by omega), Out.ok_bind, if_pos (by omega)]
        exact ih _ _ _ ht' (by omega) (by omega) (by omega) (by omega)

end ring

variable {α : Type} [CommRing α] [LinearOrder α] [IsStrictOrderedRing α]

/-- A reversed update only passes pending changes down. -/
theorem change_reversed {tag : Node α → Node α} {lv rv : Int} (hv : rv < lv) (N : Nat) : ∀ (l r : Int) (o : Nat), l ≤ r →
    ∀ (fuel : Nat) (t : Nat → Node α), (r - l).toNat < fuel → 1 ≤ o → l < lv → rv ≤ r → Safe (4 * N) t l r o →
    ∃ t', change tag lv rv fuel l r o ⟨N, t⟩ = .ok ⟨N, t'⟩ ∧ Keeps t t' l r o := by
  refine seg_ind ?_ ?_
  · intro l o fuel t hf ho h1 h2 hS
    obtain ⟨fuel, rfl⟩ : ∃ k, fuel = k + 1 := ⟨fuel - 1, by omega⟩
    rw [change, update_safe (t := ⟨N, t⟩) ho hS, Out.ok_bind, if_neg (by omega)]
    dsimp only
    rw [if_neg (by omega), Out.ok_bind, if_neg (by omega)]
    exact ⟨_, rfl, upd_keeps t ho (le_refl l)⟩
  · intro l r o hlr hL hRt fuel t hf ho h1 h2 hS
    obtain ⟨fuel, rfl⟩ : ∃ k, fuel = k + 1 := ⟨fuel - 1, by omega⟩
    rw [change, update_safe (t := ⟨N, t⟩) ho hS, Out.ok_bind, if_neg (by omega)]
    dsimp only
    have K := upd_keeps t (l := l) (r := r) ho hlr.le
    have hS' := safe_upd hS
    by_cases c1 : lv ≤ (l + r) / 2
    · obtain ⟨t', e, K'⟩ := hL fuel (upd t o l r) (by omega) (by omega) h1 (by omega) (safe_left hlr hS')
      rw [if_pos c1, e, Out.ok_bind, if_neg (by omega)]
      exact ⟨t', rfl, K.trans (K'.left ho hlr)⟩
    · rw [if_neg c1, Out.ok_bind]
      by_cases c2 : rv > (l + r) / 2
      · obtain ⟨t', e, K'⟩ := hRt fuel (upd t o l r) (by omega) (by omega) (by omega) h2 (safe_right hlr hS')
        rw [if_pos c2, e]
        exact ⟨t', rfl, K.trans (K'.right ho hlr)⟩
      · rw [if_neg c2]
        exact ⟨_, rfl, K⟩

omit [CommRing α] [LinearOrder α] [IsStrictOrderedRing α] in
theorem apply_clip (v : List α) {lv rv : Int} (g : α → α) :
    (v.mapIdx fun i y => if lv ≤ (i : Int) ∧ (i : Int) ≤ rv then g y else y) =
      v.mapIdx fun i y => if max lv 0 ≤ (i : Int) ∧ (i : Int) ≤ min rv ((v.length : Int) - 1) then g y else y := by
  refine List.mapIdx_eq_mapIdx_iff.2 fun i hi => ?_
  by_cases c : lv ≤ (i : Int) ∧ (i : Int) ≤ rv
  · rw [if_pos c, if_pos (by omega)]
  · rw [if_neg c, if_neg (by omega)]

omit [CommRing α] [LinearOrder α] [IsStrictOrderedRing α] in
theorem apply_reversed (v : List α) {lv rv : Int} (h : rv < lv) (g : α → α) :
    (v.mapIdx fun i y => if lv ≤ (i : Int) ∧ (i : Int) ≤ rv then g y else y) = v := by
  refine List.ext_getElem (by simp) fun i h1 h2 => ?_
  rw [List.getElem_mapIdx, if_neg (by omega)]

theorem exec_fine {v : List α} {fuel : Nat} (hv : v ≠ []) (hf : v.length ≤ fuel)
    (hF : Fits (4 * v.length) 0 ((v.length : Int) - 1) 1) {t : Nat → Node α} (hst : St v t) (op : Op α)
    (hr : Op.Fine v.length op) :
    ∃ t', exec fuel ⟨v.length, t⟩ op = .ok ⟨v.length, t'⟩ ∧ St (apply v op) t' ∧
      (∀ nn, (nn → Op.NonNeg op) → Pos nn t → Pos nn t') ∧
      (∀ (nn : Prop) (a b : Int), 0 ≤ a → b < v.length → (nn → Op.NonNeg op) → Op.Leaves a b op → Pos nn t →
        Good nn a b t 0 ((v.length : Int) - 1) 1 → Good nn a b t' 0 ((v.length : Int) - 1) 1) := by
  have hl : 1 ≤ v.length := by cases v with | nil => exact absurd rfl hv | cons => simp
  have rev : ∀ (tag : Node α → Node α) {lv rv : Int}, Reversed v.length lv rv →
      ∃ t', change tag lv rv fuel 0 ((v.length : Int) - 1) 1 ⟨v.length, t⟩ = .ok ⟨v.length, t'⟩ ∧
        Keeps t t' 0 ((v.length : Int) - 1) 1 := fun tag lv rv h =>
    change_reversed h.1 v.length 0 _ 1 (by omega) fuel t (by omega) (le_refl 1) h.2.1 (by have := h.2.2; omega) (.inl hF)
  have rng : ∀ {lv rv : Int}, Touches v.length lv rv → InRange v.length (max lv 0) (min rv ((v.length : Int) - 1)) := by
    intro lv rv h
    obtain ⟨h1, h2, h3⟩ := h
    refine ⟨?_, ?_, ?_⟩ <;> omega
  cases op with
  | add lv rv x =>
    by_cases hT : Touches v.length lv rv
    · have h := hT
      obtain ⟨h1, h2, h3⟩ := h
      obtain ⟨t', e, st, ps, gd⟩ := exec_ok hf hF hst (.add (max lv 0) (min rv ((v.length : Int) - 1)) x) (rng hT)
      refine ⟨t', ?_, ?_, fun nn _ => ps nn fun _ => trivial, fun nn a b ha hb _ hL =>
        gd nn a b (fun _ => trivial) ?_⟩
      · rw [← e]
        exact change_clip h1 _ _ _ _ _ (le_refl 0) (by dsimp only; omega) (by dsimp only; omega) (by dsimp only; omega) h2
      · show St (v.mapIdx _) t'
        rw [apply_clip v (· + x)]
        exact st
      · simp only [Op.Leaves] at hL
        show (_ ∧ _) ∨ _ ∨ _
        omega
    · have hR : Reversed v.length lv rv := hr.resolve_left hT
      obtain ⟨t', e, K⟩ := rev (fun nd => { nd with add := x, hasAdd := true }) hR
      refine ⟨t', e, ?_, fun nn _ => K.pos nn, fun nn a b _ _ _ _ => K.good nn a b⟩
      show St (v.mapIdx _) t'
      rw [apply_reversed v hR.1 (· + x)]
      exact ⟨fun p h1 h2 => (K.eff p).trans (hst.eff p h1 h2), K.leafy hst.leafy⟩
  | mul lv rv x =>
    by_cases hT : Touches v.length lv rv
    · have h := hT
      obtain ⟨h1, h2, h3⟩ := h
      obtain ⟨t', e, st, ps, gd⟩ := exec_ok hf hF hst (.mul (max lv 0) (min rv ((v.length : Int) - 1)) x) (rng hT)
      refine ⟨t', ?_, ?_, ps, fun nn a b ha hb hn hL =>
        gd nn a b hn ?_⟩
      · rw [← e]
        exact change_clip h1 _ _ _ _ _ (le_refl 0) (by dsimp only; omega) (by dsimp only; omega) (by dsimp only; omega) h2
      · show St (v.mapIdx _) t'
        rw [apply_clip v (· * x)]
        exact st
      · simp only [Op.Leaves] at hL
        show (_ ∧ _) ∨ _ ∨ _
        omega
    · have hR : Reversed v.length lv rv := hr.resolve_left hT
      obtain ⟨t', e, K⟩ := rev (fun nd => { nd with mul := x, hasMul := true }) hR
      refine ⟨t', e, ?_, fun nn _ => K.pos nn, fun nn a b _ _ _ _ => K.good nn a b⟩
      show St (v.mapIdx _) t'
      rw [apply_reversed v hR.1 (· * x)]
      exact ⟨fun p h1 h2 => (K.eff p).trans (hst.eff p h1 h2), K.leafy hst.leafy⟩
  | max lv rv =>
    have h := hr
    obtain ⟨h1, h2, h3⟩ := h
    obtain ⟨t', e, st, ps, gd⟩ := exec_ok hf hF hst (.max (max lv 0) (min rv ((v.length : Int) - 1))) (rng hr)
    refine ⟨t', ?_, st, ps, fun nn a b _ _ hn _ => gd nn a b hn trivial⟩
    rw [← e, exec, exec, queryMax, queryMax]
    rw [query_clip (n := v.length) h1 _ _ _ _ _ (le_refl 0) (by dsimp only; omega) (by dsimp only; omega) (by dsimp only; omega) h2]
  | min lv rv =>
    have h := hr
    obtain ⟨h1, h2, h3⟩ := h
    obtain ⟨t', e, st, ps, gd⟩ := exec_ok hf hF hst (.min (max lv 0) (min rv ((v.length : Int) - 1))) (rng hr)
    refine ⟨t', ?_, st, ps, fun nn a b _ _ hn _ => gd nn a b hn trivial⟩
    rw [← e, exec, exec, queryMin, queryMin]
    rw [query_clip (n := v.length) h1 _ _ _ _ _ (le_refl 0) (by dsimp only; omega) (by dsimp only; omega) (by dsimp only; omega) h2]
  | sum lv rv =>
    have h := hr
    obtain ⟨h1, h2, h3⟩ := h
    obtain ⟨t', e, st, ps, gd⟩ := exec_ok hf hF hst (.sum (max lv 0) (min rv ((v.length : Int) - 1))) (rng hr)
    refine ⟨t', ?_, st, ps, fun nn a b _ _ hn _ => gd nn a b hn trivial⟩
    rw [← e, exec, exec, querySum, querySum]
    rw [query_clip (n := v.length) h1 _ _ _ _ _ (le_refl 0) (by dsimp only; omega) (by dsimp only; omega) (by dsimp only; omega) h2]

theorem runFrom_fine {fuel : Nat} (ops : List (Op α)) : ∀ {v : List α} (_ : v ≠ []) (_ : v.length ≤ fuel)
    (_ : Fits (4 * v.length) 0 ((v.length : Int) - 1) 1) {t : Nat → Node α} (_ : St v t)
    (_ : ∀ op ∈ ops, Op.Fine v.length op),
    ∃ t', ops.foldlM (exec fuel) ⟨v.length, t⟩ = .ok ⟨v.length, t'⟩ ∧ (values v ops).length = v.length ∧
      St (values v ops) t' ∧
      ∀ nn, (nn → ∀ op ∈ ops, Op.NonNeg op) → Pos nn t → Pos nn t' ∧
        ∀ a b : Int, 0 ≤ a → b < v.length → (∀ op ∈ ops, Op.Leaves a b op) →
        Good nn a b t 0 ((v.length : Int) - 1) 1 → Good nn a b t' 0 ((v.length : Int) - 1) 1 := by
  induction ops with
  | nil => intro v _ _ _ t hst _; exact ⟨t, rfl, rfl, hst, fun nn _ hp => ⟨hp, fun a b _ _ _ => id⟩⟩
  | cons op ops ih =>
    intro v hv hf hF t hst hr
    obtain ⟨t1, e, st, ps, gd⟩ := exec_fine hv hf hF hst op (hr op (by simp))
    have hl := length_apply v op
    have hv' : apply v op ≠ [] := by
      intro h
      rw [h] at hl
      exact hv (List.length_eq_zero_iff.1 hl.symm)
    obtain ⟨t2, e2, l2, st2, q⟩ := ih (v := apply v op) hv' (by rw [hl]; exact hf) (by rw [hl]; exact hF) st
      (fun o ho => by rw [hl]; exact hr o (by simp [ho]))
    rw [hl] at e2 q l2
    refine ⟨t2, by rw [List.foldlM_cons, e, Out.ok_bind, e2], l2, st2, fun nn hn hp => ?_⟩
    obtain ⟨q1, q2⟩ := q nn (fun h o ho => hn h o (by simp [ho])) (ps nn (fun h => hn h op (by simp)) hp)
    exact ⟨q1, fun a b ha hb hR g => q2 a b ha hb (fun o ho => hR o (by simp [ho]))
      (gd nn a b ha hb (fun h => hn h op (by simp)) (hR op (by simp)) hp g)⟩

end SegmentTree
