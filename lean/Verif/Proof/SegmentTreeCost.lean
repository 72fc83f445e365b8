import Verif.Spec.SegmentTree
import Mathlib.Data.Nat.Log
import Mathlib.Algebra.Ring.Int.Defs
import Mathlib.Algebra.Order.Ring.Int

/-! # Segment trees: recursion depth and number of entries -/

namespace SegmentTree
open Cpp Spec

variable {α : Type} [CommRing α] [LinearOrder α]

omit [CommRing α] [LinearOrder α] in
theorem half {l r : Int} {d : Nat} (hlt : l < r) (h : r - l + 1 ≤ 2 ^ (d + 1)) :
    l ≤ (l + r) / 2 ∧ (l + r) / 2 < r ∧ (l + r) / 2 - l + 1 ≤ 2 ^ d ∧ r - ((l + r) / 2 + 1) + 1 ≤ 2 ^ d := by
  rw [pow_succ] at h
  omega

theorem init_depth (v : List α) : ∀ {d n m : Nat} {l r : Int} {o : Nat} {t : Seg α}, l ≤ r → r - l + 1 ≤ 2 ^ d → d < n → d < m →
    init v n l r o t = init v m l r o t
  | d, 0, _, _, _, _, _, _, _, h, _ => by omega
  | d, _ + 1, 0, _, _, _, _, _, _, _, h => by omega
  | d, n + 1, m + 1, l, r, o, t, hlr, hd, hn, hm => by
    rw [init, init]
    by_cases e : l = r
    · rw [if_pos e, if_pos e]
    · rw [if_neg e, if_neg e]
      cases d with
      | zero => simp at hd; omega
      | succ d =>
        obtain ⟨h1, h2, h3, h4⟩ := half (by omega) hd
        simp only
        rw [init_depth v (d := d) (n := n) (m := m) h1 h3 (by omega) (by omega)]
        refine congrArg _ (funext fun t => ?_)
        rw [init_depth v (d := d) (n := n) (m := m) (by omega) h4 (by omega) (by omega)]

omit [LinearOrder α] in
theorem query_depth (sel : Node α → α) (comb : α → α → α) {lv rv : Int} : ∀ {d n m : Nat} {l r : Int} {o : Nat} {t : Seg α},
    l ≤ r → lv ≤ rv → lv ≤ r → l ≤ rv → r - l + 1 ≤ 2 ^ d → d < n → d < m →
    query sel comb lv rv n l r o t = query sel comb lv rv m l r o t
  | d, 0, _, _, _, _, _, _, _, _, _, _, h, _ => by omega
  | d, _ + 1, 0, _, _, _, _, _, _, _, _, _, _, h => by omega
  | d, n + 1, m + 1, l, r, o, t, hlr, hv, h1, h2, hd, hn, hm => by
    rw [query, query]
    refine congrArg _ (funext fun t => ?_)
    by_cases e : lv ≤ l ∧ rv ≥ r
    · rw [if_pos e, if_pos e]
    · rw [if_neg e, if_neg e]
      cases d with
      | zero => simp at hd; omega
      | succ d =>
        have hlt : l < r := by
          by_contra hc
          have : l = r := by omega
          subst this
          exact e ⟨by omega, by omega⟩
        obtain ⟨g1, g2, g3, g4⟩ := half hlt hd
        have L : lv ≤ (l + r) / 2 → ∀ t, query sel comb lv rv n l ((l + r) / 2) (2 * o) t = query sel comb lv rv m l ((l + r) / 2) (2 * o) t :=
          fun h t => query_depth sel comb (d := d) g1 hv h h2 g3 (by omega) (by omega)
        have R : (l + r) / 2 < rv → ∀ t, query sel comb lv rv n ((l + r) / 2 + 1) r (2 * o + 1) t =
            query sel comb lv rv m ((l + r) / 2 + 1) r (2 * o + 1) t :=
          fun h t => query_depth sel comb (d := d) (by omega) hv h1 (by omega) g4 (by omega) (by omega)
        simp only
        by_cases c1 : rv ≤ (l + r) / 2
        · rw [if_pos c1, if_pos c1]; exact L (by omega) t
        · rw [if_neg c1, if_neg c1]
          by_cases c2 : lv > (l + r) / 2
          · rw [if_pos c2, if_pos c2]; exact R (by omega) t
          · rw [if_neg c2, if_neg c2, L (by omega)]
            refine congrArg _ (funext fun p => ?_)
            obtain ⟨t, x⟩ := p
            simp only
            rw [R (by omega)]

omit [LinearOrder α] in
theorem change_depth (tag : Node α → Node α) {lv rv : Int} : ∀ {d n m : Nat} {l r : Int} {o : Nat} {t : Seg α},
    l ≤ r → lv ≤ rv → lv ≤ r → l ≤ rv → r - l + 1 ≤ 2 ^ d → d < n → d < m →
    change tag lv rv n l r o t = change tag lv rv m l r o t
  | d, 0, _, _, _, _, _, _, _, _, _, _, h, _ => by omega
  | d, _ + 1, 0, _, _, _, _, _, _, _, _, _, _, h => by omega
  | d, n + 1, m + 1, l, r, o, t, hlr, hv, h1, h2, hd, hn, hm => by
    rw [change, change]
    refine congrArg _ (funext fun t => ?_)
    by_cases e : lv ≤ l ∧ rv ≥ r
    · rw [if_pos e, if_pos e]
    · rw [if_neg e, if_neg e]
      cases d with
      | zero => simp at hd; omega
      | succ d =>
        have hlt : l < r := by
          by_contra hc
          have : l = r := by omega
          subst this
          exact e ⟨by omega, by omega⟩
        obtain ⟨g1, g2, g3, g4⟩ := half hlt hd
        simp only
        by_cases c1 : lv ≤ (l + r) / 2
        · rw [if_pos c1, if_pos c1, change_depth tag (d := d) (n := n) (m := m) g1 hv c1 h2 g3 (by omega) (by omega)]
          refine congrArg _ (funext fun t => ?_)
          by_cases c2 : rv > (l + r) / 2
          · rw [if_pos c2, if_pos c2]
            exact change_depth tag (d := d) (by omega) hv h1 (by omega) g4 (by omega) (by omega)
          · rw [if_neg c2, if_neg c2]
        · rw [if_neg c1, if_neg c1]
          refine congrArg _ (funext fun t => ?_)
          by_cases c2 : rv > (l + r) / 2
          · rw [if_pos c2, if_pos c2]
            exact change_depth tag (d := d) (by omega) hv h1 (by omega) g4 (by omega) (by omega)
          · rw [if_neg c2, if_neg c2]

/-! ### the size does not change -/

omit [CommRing α] [LinearOrder α] in
theorem put_size {t t' : Seg α} {o : Nat} {nd : Node α} (h : t.put o nd = .ok t') : t'.size = t.size := by
  unfold Seg.put at h
  split_ifs at h
  injection h with h
  rw [← h]

omit [LinearOrder α] in
theorem update_size {t t' : Seg α} {o : Nat} {l r : Int} (h : update t o l r = .ok t') : t'.size = t.size := by
  unfold update at h
  obtain ⟨nd, -, h⟩ := (Out.bind_eq_ok ..).1 h
  obtain ⟨t1, h1, h⟩ := (Out.bind_eq_ok ..).1 h
  have e1 : t1.size = t.size := by
    split_ifs at h1
    · obtain ⟨a1, b1, h1⟩ := (Out.bind_eq_ok ..).1 h1
      obtain ⟨c1, -, h1⟩ := (Out.bind_eq_ok ..).1 h1
      obtain ⟨a2, b2, h1⟩ := (Out.bind_eq_ok ..).1 h1
      obtain ⟨c2, -, h1⟩ := (Out.bind_eq_ok ..).1 h1
      rw [put_size h1, put_size b2, put_size b1]
    · injection h1 with h1; rw [h1]
  obtain ⟨nd', -, h⟩ := (Out.bind_eq_ok ..).1 h
  split_ifs at h
  · obtain ⟨a1, b1, h⟩ := (Out.bind_eq_ok ..).1 h
    obtain ⟨c1, -, h⟩ := (Out.bind_eq_ok ..).1 h
    obtain ⟨a2, b2, h⟩ := (Out.bind_eq_ok ..).1 h
    obtain ⟨c2, -, h⟩ := (Out.bind_eq_ok ..).1 h
    rw [put_size h, put_size b2, put_size b1, e1]
  · injection h with h; rw [← h, e1]

theorem init_size (v : List α) : ∀ {n : Nat} {l r : Int} {o : Nat} {t t' : Seg α}, init v n l r o t = .ok t' → t'.size = t.size
  | 0, _, _, _, _, _, h => by cases h
  | n + 1, l, r, o, t, t', h => by
    rw [init] at h
    split_ifs at h
    · obtain ⟨x, -, h⟩ := (Out.bind_eq_ok ..).1 h
      obtain ⟨nd, -, h⟩ := (Out.bind_eq_ok ..).1 h
      exact put_size h
    · obtain ⟨t1, h1, h⟩ := (Out.bind_eq_ok ..).1 h
      obtain ⟨t2, h2, h⟩ := (Out.bind_eq_ok ..).1 h
      obtain ⟨_, -, h⟩ := (Out.bind_eq_ok ..).1 h
      obtain ⟨_, -, h⟩ := (Out.bind_eq_ok ..).1 h
      obtain ⟨_, -, h⟩ := (Out.bind_eq_ok ..).1 h
      rw [put_size h, init_size v h2, init_size v h1]

omit [LinearOrder α] in
theorem query_size (sel : Node α → α) (comb : α → α → α) {lv rv : Int} : ∀ {n : Nat} {l r : Int} {o : Nat} {t t' : Seg α} {x : α},
    query sel comb lv rv n l r o t = .ok (t', x) → t'.size = t.size
  | 0, _, _, _, _, _, _, h => by cases h
  | n + 1, l, r, o, t, t', x, h => by
    rw [query] at h
    obtain ⟨t1, h1, h⟩ := (Out.bind_eq_ok ..).1 h
    rw [← update_size h1]
    simp only at h
    split_ifs at h
    · obtain ⟨nd, -, h⟩ := (Out.bind_eq_ok ..).1 h
      injection h with h
      injection h with h _
      rw [h]
    · exact query_size sel comb h
    · exact query_size sel comb h
    · obtain ⟨⟨t2, y⟩, h2, h⟩ := (Out.bind_eq_ok ..).1 h
      obtain ⟨⟨t3, z⟩, h3, h⟩ := (Out.bind_eq_ok ..).1 h
      injection h with h
      injection h with h _
      rw [← h, query_size sel comb h3, query_size sel comb h2]

omit [LinearOrder α] in
theorem change_size (tag : Node α → Node α) {lv rv : Int} : ∀ {n : Nat} {l r : Int} {o : Nat} {t t' : Seg α},
    change tag lv rv n l r o t = .ok t' → t'.size = t.size
  | 0, _, _, _, _, _, h => by cases h
  | n + 1, l, r, o, t, t', h => by
    rw [change] at h
    obtain ⟨t1, h1, h⟩ := (Out.bind_eq_ok ..).1 h
    rw [← update_size h1]
    by_cases e : lv ≤ l ∧ rv ≥ r
    · rw [if_pos e] at h
      obtain ⟨nd, -, h⟩ := (Out.bind_eq_ok ..).1 h
      exact put_size h
    · rw [if_neg e] at h
      obtain ⟨t2, h2, h⟩ := (Out.bind_eq_ok ..).1 h
      have e2 : t2.size = t1.size := by
        split_ifs at h2
        · exact change_size tag h2
        · injection h2 with h2; rw [h2]
      rw [← e2]
      split_ifs at h
      · exact change_size tag h
      · injection h with h; rw [h]

theorem exec_size {n : Nat} {t t' : Seg α} {op : Op α} (h : exec n t op = .ok t') : t'.size = t.size := by
  cases op with
  | add lv rv x => exact change_size _ h
  | mul lv rv x => exact change_size _ h
  | max lv rv =>
    obtain ⟨⟨t1, x⟩, h1, h⟩ := (Out.bind_eq_ok ..).1 h
    injection h with h
    rw [← h]; exact query_size _ _ h1
  | min lv rv =>
    obtain ⟨⟨t1, x⟩, h1, h⟩ := (Out.bind_eq_ok ..).1 h
    injection h with h
    rw [← h]; exact query_size _ _ h1
  | sum lv rv =>
    obtain ⟨⟨t1, x⟩, h1, h⟩ := (Out.bind_eq_ok ..).1 h
    injection h with h
    rw [← h]; exact query_size _ _ h1

/-! ### programs -/

theorem exec_depth {d n m : Nat} {t : Seg α} {op : Op α} (hr : Op.InRange t.size op) (hd : t.size ≤ 2 ^ d) (hn : d < n) (hm : d < m) :
    exec n t op = exec m t op := by
  have hd' : ((t.size : Int) - 1) - 0 + 1 ≤ 2 ^ d := by have : (t.size : Int) ≤ ((2 ^ d : Nat) : Int) := by exact_mod_cast hd
                                                        push_cast at this; omega
  cases op with
  | add lv rv x => obtain ⟨h1, h2, h3⟩ := hr; exact change_depth _ (by omega) h2 (by omega) (by omega) hd' hn hm
  | mul lv rv x => obtain ⟨h1, h2, h3⟩ := hr; exact change_depth _ (by omega) h2 (by omega) (by omega) hd' hn hm
  | max lv rv =>
    obtain ⟨h1, h2, h3⟩ := hr
    simp only [exec, queryMax]
    rw [query_depth _ _ (by omega) h2 (by omega) (by omega) hd' hn hm]
  | min lv rv =>
    obtain ⟨h1, h2, h3⟩ := hr
    simp only [exec, queryMin]
    rw [query_depth _ _ (by omega) h2 (by omega) (by omega) hd' hn hm]
  | sum lv rv =>
    obtain ⟨h1, h2, h3⟩ := hr
    simp only [exec, querySum]
    rw [query_depth _ _ (by omega) h2 (by omega) (by omega) hd' hn hm]

theorem execs_depth {d n m : Nat} (hn : d < n) (hm : d < m) : ∀ (ops : List (Op α)) (t : Seg α), (∀ op ∈ ops, Op.InRange t.size op) →
    t.size ≤ 2 ^ d → ops.foldlM (exec n) t = ops.foldlM (exec m) t
  | [], _, _, _ => rfl
  | op :: ops, t, hr, hd => by
    rw [List.foldlM_cons, List.foldlM_cons, exec_depth (hr op (by simp)) hd hn hm]
    cases e : exec m t op with
    | ok t' =>
      rw [Out.ok_bind, Out.ok_bind]
      have hs := exec_size e
      exact execs_depth hn hm ops t' (fun op h => by rw [hs]; exact hr op (by simp [h])) (by omega)
    | exit => rfl
    | ub => rfl
    | diverge => rfl

theorem run_depth {d n m : Nat} {v : List α} {ops : List (Op α)} (hv : v ≠ []) (hr : ∀ op ∈ ops, Op.InRange v.length op)
    (hd : v.length ≤ 2 ^ d) (hn : d < n) (hm : d < m) : run n v ops = run m v ops := by
  have hl : 1 ≤ v.length := by cases v with | nil => exact absurd rfl hv | cons => simp
  have hd' : ((v.length : Int) - 1) - 0 + 1 ≤ 2 ^ d := by
    have : (v.length : Int) ≤ ((2 ^ d : Nat) : Int) := by exact_mod_cast hd
    push_cast at this; omega
  have e : build n v = build m v := init_depth v (by omega) hd' hn hm
  rw [run, run, e]
  cases eb : build m v with
  | ok t =>
    rw [Out.ok_bind, Out.ok_bind]
    have hs : t.size = v.length := init_size v eb
    exact execs_depth hn hm ops t (fun op h => by rw [hs]; exact hr op h) (by omega)
  | exit => rfl
  | ub => rfl
  | diverge => rfl

/-! ### the number of entries -/

theorem count_prefix {rv : Int} : ∀ {d n : Nat} {l r lv : Int} {o : Nat} {t t' : Seg Int} {x : Int}, r - l + 1 ≤ 2 ^ d → l ≤ r → lv ≤ l →
    l ≤ rv → query (fun _ => 1) (· + ·) lv rv n l r o t = .ok (t', x) → x ≤ d + 1
  | d, 0, _, _, _, _, _, _, _, _, _, _, _, h => by cases h
  | d, n + 1, l, r, lv, o, t, t', x, hd, hlr, hl, hr, h => by
    rw [query] at h
    obtain ⟨t1, -, h⟩ := (Out.bind_eq_ok ..).1 h
    by_cases e : lv ≤ l ∧ rv ≥ r
    · rw [if_pos e] at h
      obtain ⟨nd, -, h⟩ := (Out.bind_eq_ok ..).1 h
      injection h with h
      injection h with _ h
      omega
    · rw [if_neg e] at h
      cases d with
      | zero => simp at hd; omega
      | succ d =>
        have hlt : l < r := by
          by_contra hc
          exact e ⟨by omega, by omega⟩
        obtain ⟨g1, g2, g3, g4⟩ := half hlt hd
        simp only at h
        by_cases c1 : rv ≤ (l + r) / 2
        · rw [if_pos c1] at h
          have := count_prefix g3 g1 hl hr h
          push_cast; omega
        · rw [if_neg c1, if_neg (by omega)] at h
          obtain ⟨⟨t2, y⟩, h2, h⟩ := (Out.bind_eq_ok ..).1 h
          obtain ⟨⟨t3, z⟩, h3, h⟩ := (Out.bind_eq_ok ..).1 h
          injection h with h
          injection h with _ h
          have h3' := count_prefix g4 (by omega) (by omega) (by omega) h3
          -- the left half is covered
          have : y = 1 := by
            cases n with
            | zero => cases h2
            | succ n =>
              rw [query] at h2
              obtain ⟨t1, -, h2⟩ := (Out.bind_eq_ok ..).1 h2
              rw [if_pos ⟨hl, by omega⟩] at h2
              obtain ⟨nd, -, h2⟩ := (Out.bind_eq_ok ..).1 h2
              injection h2 with h2
              injection h2 with _ h2
              exact h2.symm
          push_cast; omega

theorem count_suffix {lv : Int} : ∀ {d n : Nat} {l r rv : Int} {o : Nat} {t t' : Seg Int} {x : Int}, r - l + 1 ≤ 2 ^ d → l ≤ r → r ≤ rv →
    lv ≤ r → query (fun _ => 1) (· + ·) lv rv n l r o t = .ok (t', x) → x ≤ d + 1
  | d, 0, _, _, _, _, _, _, _, _, _, _, _, h => by cases h
  | d, n + 1, l, r, rv, o, t, t', x, hd, hlr, hl, hr, h => by
    rw [query] at h
    obtain ⟨t1, -, h⟩ := (Out.bind_eq_ok ..).1 h
    by_cases e : lv ≤ l ∧ rv ≥ r
    · rw [if_pos e] at h
      obtain ⟨nd, -, h⟩ := (Out.bind_eq_ok ..).1 h
      injection h with h
      injection h with _ h
      omega
    · rw [if_neg e] at h
      cases d with
      | zero => simp at hd; omega
      | succ d =>
        have hlt : l < r := by
          by_contra hc
          exact e ⟨by omega, by omega⟩
        obtain ⟨g1, g2, g3, g4⟩ := half hlt hd
        simp only at h
        rw [if_neg (by omega)] at h
        by_cases c1 : lv > (l + r) / 2
        · rw [if_pos c1] at h
          have := count_suffix g4 (by omega) hl hr h
          push_cast; omega
        · rw [if_neg c1] at h
          obtain ⟨⟨t2, y⟩, h2, h⟩ := (Out.bind_eq_ok ..).1 h
          obtain ⟨⟨t3, z⟩, h3, h⟩ := (Out.bind_eq_ok ..).1 h
          injection h with h
          injection h with _ h
          have h2' := count_suffix g3 g1 (by omega) (by omega) h2
          -- the right half is covered
          have : z = 1 := by
            cases n with
            | zero => cases h3
            | succ n =>
              rw [query] at h3
              obtain ⟨t1, -, h3⟩ := (Out.bind_eq_ok ..).1 h3
              rw [if_pos ⟨by omega, hl⟩] at h3
              obtain ⟨nd, -, h3⟩ := (Out.bind_eq_ok ..).1 h3
              injection h3 with h3
              injection h3 with _ h3
              exact h3.symm
          push_cast; omega

theorem count_query {lv rv : Int} : ∀ {d n : Nat} {l r : Int} {o : Nat} {t t' : Seg Int} {x : Int}, r - l + 1 ≤ 2 ^ d → l ≤ r →
    lv ≤ rv → lv ≤ r → l ≤ rv → query (fun _ => 1) (· + ·) lv rv n l r o t = .ok (t', x) → x ≤ 2 * d + 1
  | d, 0, _, _, _, _, _, _, _, _, _, _, _, h => by cases h
  | d, n + 1, l, r, o, t, t', x, hd, hlr, hv, h1, h2, h => by
    rw [query] at h
    obtain ⟨t1, -, h⟩ := (Out.bind_eq_ok ..).1 h
    by_cases e : lv ≤ l ∧ rv ≥ r
    · rw [if_pos e] at h
      obtain ⟨nd, -, h⟩ := (Out.bind_eq_ok ..).1 h
      injection h with h
      injection h with _ h
      omega
    · rw [if_neg e] at h
      cases d with
      | zero => simp at hd; omega
      | succ d =>
        have hlt : l < r := by
          by_contra hc
          exact e ⟨by omega, by omega⟩
        obtain ⟨g1, g2, g3, g4⟩ := half hlt hd
        simp only at h
        by_cases c1 : rv ≤ (l + r) / 2
        · rw [if_pos c1] at h
          have := count_query g3 g1 hv (by omega) h2 h
          push_cast; omega
        · rw [if_neg c1] at h
          by_cases c2 : lv > (l + r) / 2
          · rw [if_pos c2] at h
            have := count_query g4 (by omega) hv h1 (by omega) h
            push_cast; omega
          · rw [if_neg c2] at h
            obtain ⟨⟨t2, y⟩, e2, h⟩ := (Out.bind_eq_ok ..).1 h
            obtain ⟨⟨t3, z⟩, e3, h⟩ := (Out.bind_eq_ok ..).1 h
            injection h with h
            injection h with _ h
            have a1 := count_suffix g3 g1 (by omega) (by omega) e2
            have a2 := count_prefix g4 (by omega) (by omega) (by omega) e3
            push_cast; omega

end SegmentTree
