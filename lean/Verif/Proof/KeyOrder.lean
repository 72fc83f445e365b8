import Verif.Model.KeyOrder
import Verif.Spec.KeyOrder
import Verif.Proof.Assoc
import Mathlib.Data.List.Induction
import Mathlib.Tactic.ByContra

/-! # Containers over a comparison that agrees with the order of a key -/

namespace Cont.By
open Cpp

variable {α κ ν : Type} [LinearOrder κ]

/-- The comparison is defined on `P` and compares keys. -/
def Agrees (lt : α → α → Out Bool) (P : α → Prop) (key : α → κ) : Prop :=
  ∀ a b, P a → P b → lt a b = .ok (decide (key a < key b))

variable {lt : α → α → Out Bool} {P : α → Prop} {key : α → κ}

/-! ### Set -/

theorem setInsert_by (H : Agrees lt P key) {x : α} (hx : P x) (s : List α) (hs : ∀ y ∈ s, P y) :
    ∃ s', setInsert lt x s = .ok s' ∧ (∀ y ∈ s', P y) ∧
      s'.map (fun y => (key y, y)) = Stl.mapInsert (key x) x (s.map fun y => (key y, y)) := by
  induction s with
  | nil => exact ⟨[x], rfl, by simpa using hx, rfl⟩
  | cons y s ih =>
    have hy := hs y (by simp)
    have hs' : ∀ z ∈ s, P z := fun z hz => hs z (by simp [hz])
    obtain ⟨s', e, h1, h2⟩ := ih hs'
    simp only [setInsert, H x y hx hy, H y x hy hx, Out.ok_bind, List.map_cons, Stl.mapInsert, e, decide_eq_true_eq]
    by_cases c1 : key x < key y
    · simp only [c1, if_true]
      exact ⟨_, rfl, by intro z hz; rcases List.mem_cons.1 hz with rfl | hz; exacts [hx, hs z hz], by simp⟩
    by_cases c2 : key y < key x
    · simp only [c1, c2, if_true, if_false]
      exact ⟨_, rfl, by intro z hz; rcases List.mem_cons.1 hz with rfl | hz; exacts [hy, h1 z hz], by simp [h2]⟩
    · simp only [c1, c2, if_false]
      exact ⟨_, rfl, hs, by simp⟩

theorem setErase_by (H : Agrees lt P key) {x : α} (hx : P x) (s : List α) (hs : ∀ y ∈ s, P y) :
    ∃ s', setErase lt x s = .ok s' ∧ (∀ y ∈ s', P y) ∧
      s'.map (fun y => (key y, y)) = Stl.mapErase (key x) (s.map fun y => (key y, y)) := by
  induction s with
  | nil => exact ⟨[], rfl, by simp, rfl⟩
  | cons y s ih =>
    have hy := hs y (by simp)
    have hs' : ∀ z ∈ s, P z := fun z hz => hs z (by simp [hz])
    obtain ⟨s', e, h1, h2⟩ := ih hs'
    simp only [setErase, H x y hx hy, H y x hy hx, Out.ok_bind, List.map_cons, Stl.mapErase, e, decide_eq_true_eq]
    by_cases c1 : key x < key y
    · simp only [c1, if_true]
      exact ⟨_, rfl, hs, by simp⟩
    by_cases c2 : key y < key x
    · simp only [c1, c2, if_true, if_false]
      exact ⟨_, rfl, by intro z hz; rcases List.mem_cons.1 hz with rfl | hz; exacts [hy, h1 z hz], by simp [h2]⟩
    · simp only [c1, c2, if_false]
      exact ⟨_, rfl, h1, h2⟩

theorem setFind_by (H : Agrees lt P key) {x : α} (hx : P x) (s : List α) (hs : ∀ y ∈ s, P y) :
    setFind lt x s = .ok (Stl.mapFind (key x) (s.map fun y => (key y, y))).isSome := by
  induction s with
  | nil => rfl
  | cons y s ih =>
    have hy := hs y (by simp)
    have hs' : ∀ z ∈ s, P z := fun z hz => hs z (by simp [hz])
    simp only [setFind, H x y hx hy, H y x hy hx, Out.ok_bind, List.map_cons, Stl.mapFind, ih hs', decide_eq_true_eq]
    by_cases c1 : key x < key y
    · simp [c1]
    by_cases c2 : key y < key x
    · simp [c1, c2]
    · simp [c1, c2]

theorem mapInsert_sorted {β : Type} {m : List (κ × β)} (hs : m.Pairwise fun a b => a.1 < b.1) (k : κ) (v : β) :
    (Stl.mapInsert k v m).Pairwise fun a b => a.1 < b.1 := by
  by_cases h : Stl.mapFind k m = none
  · rw [(mapInsert_eq m k v).1 h]; exact mapPut_sorted hs k v
  · rw [(mapInsert_eq m k v).2 h]; exact hs

theorem mapFind_insert {β : Type} {m : List (κ × β)} (k k' : κ) (v : β) :
    Stl.mapFind k' (Stl.mapInsert k v m) = if k = k' then some ((Stl.mapFind k' m).getD v) else Stl.mapFind k' m := by
  by_cases h : Stl.mapFind k m = none
  · rw [(mapInsert_eq m k v).1 h, mapFind_put]
    by_cases e : k = k'
    · subst e; simp [h]
    · simp [e]
  · rw [(mapInsert_eq m k v).2 h]
    by_cases e : k = k'
    · subst e
      obtain ⟨w, hw⟩ := Option.ne_none_iff_exists'.1 h
      simp [hw]
    · simp [e]

/-- A history of calls on a Set. -/
theorem set_by (H : Agrees lt P key) (calls : List (Set.Call α)) (hc : ∀ c ∈ calls, Spec.setArg P c) :
    ∃ s, setRun lt calls = .ok s ∧ (∀ y ∈ s, P y) ∧ (s.map fun y => (key y, y)).Pairwise (fun a b => a.1 < b.1) ∧
      ∀ k, Stl.mapFind k (s.map fun y => (key y, y)) = Spec.kept key k calls.reverse := by
  induction calls using List.reverseRecOn with
  | nil => exact ⟨[], rfl, by simp, by simp, fun k => rfl⟩
  | append_singleton calls c ih =>
    obtain ⟨s, e, h1, h2, h3⟩ := ih fun c hc' => hc c (by simp [hc'])
    have ha := hc c (by simp)
    have e' : setRun lt (calls ++ [c]) = setCall lt s c := by
      unfold setRun at e ⊢
      rw [List.foldlM_append, e, Out.ok_bind, List.foldlM_cons]
      cases setCall lt s c <;> rfl
    rw [e', List.reverse_append, List.reverse_cons, List.reverse_nil, List.nil_append, List.singleton_append]
    match c, ha with
    | .insert x, ha =>
      obtain ⟨s', e1, p1, p2⟩ := setInsert_by H ha s h1
      refine ⟨s', e1, p1, by rw [p2]; exact mapInsert_sorted h2 _ _, fun k => ?_⟩
      rw [p2, mapFind_insert, h3, Spec.kept]
    | .erase x, ha =>
      obtain ⟨s', e1, p1, p2⟩ := setErase_by H ha s h1
      refine ⟨s', e1, p1, by rw [p2]; exact h2.sublist (mapErase_sub _), fun k => ?_⟩
      rw [p2, mapFind_erase h2, h3, Spec.kept]
    | .clear, _ => exact ⟨[], rfl, by simp, by simp, fun k => rfl⟩

/-- The same as a statement about the elements. -/
theorem set_by' (H : Agrees lt P key) (calls : List (Set.Call α)) (hc : ∀ c ∈ calls, Spec.setArg P c) :
    ∃ s, setRun lt calls = .ok s ∧ s.Pairwise (fun x y => key x < key y) ∧
      (∀ x, x ∈ s ↔ Spec.kept key (key x) calls.reverse = some x) ∧
      (∀ x, P x → setFind lt x s = .ok (Spec.kept key (key x) calls.reverse).isSome) := by
  obtain ⟨s, e, h1, h2, h3⟩ := set_by H calls hc
  refine ⟨s, e, (List.pairwise_map.1 h2).imp fun h => h, fun x => ?_, fun x hx => by rw [setFind_by H hx s h1, h3]⟩
  rw [← h3, mapFind_iff h2]
  simp only [List.mem_map, Prod.mk.injEq]
  constructor
  · intro h; exact ⟨x, h, rfl, rfl⟩
  · rintro ⟨y, hy, _, rfl⟩; exact hy

/-- With different keys for different elements, a set by keys is a set. -/
theorem kept_inj [DecidableEq α] (inj : ∀ a b, P a → P b → key a = key b → a = b) {x : α} (hx : P x)
    (h : List (Set.Call α)) (hc : ∀ c ∈ h, Spec.setArg P c) :
    Spec.kept key (key x) h = if Spec.mem x h = true then some x else none := by
  induction h with
  | nil => simp [Spec.kept, Spec.mem]
  | cons c h ih =>
    have ih := ih fun c hc' => hc c (by simp [hc'])
    have ha := hc c (by simp)
    match c, ha with
    | .insert y, ha =>
      rw [Spec.kept, Spec.mem, ih]
      by_cases e : y = x
      · subst e
        by_cases m : Spec.mem y h = true <;> simp [m]
      · have : ¬ key y = key x := fun k => e (inj y x ha hx k)
        simp [e, this]
    | .erase y, ha =>
      rw [Spec.kept, Spec.mem, ih]
      by_cases e : y = x
      · subst e; simp
      · have : ¬ key y = key x := fun k => e (inj y x ha hx k)
        simp [e, this]
    | .clear, _ => simp [Spec.kept, Spec.mem]

/-! ### Map -/

theorem mapPut_by (H : Agrees lt P key) {k : α} (hk : P k) (v : ν) (m : List (α × ν)) (hm : ∀ p ∈ m, P p.1) :
    ∃ m', mapPut lt k v m = .ok m' ∧ (∀ p ∈ m', P p.1) ∧
      m'.map (fun p => (key p.1, p.2)) = Stl.mapPut (key k) v (m.map fun p => (key p.1, p.2)) := by
  induction m with
  | nil => exact ⟨[(k, v)], rfl, by simpa using hk, rfl⟩
  | cons q m ih =>
    obtain ⟨k', v'⟩ := q
    have hy : P k' := hm (k', v') (by simp)
    obtain ⟨m', e, h1, h2⟩ := ih fun z hz => hm z (by simp [hz])
    simp only [mapPut, H k k' hk hy, H k' k hy hk, Out.ok_bind, List.map_cons, Stl.mapPut, e, decide_eq_true_eq]
    by_cases c1 : key k < key k'
    · simp only [c1, if_true]
      exact ⟨_, rfl, by intro z hz; rcases List.mem_cons.1 hz with rfl | hz; exacts [hk, hm z hz], by simp⟩
    by_cases c2 : key k' < key k
    · simp only [c1, c2, if_true, if_false]
      exact ⟨_, rfl, by intro z hz; rcases List.mem_cons.1 hz with rfl | hz; exacts [hy, h1 z hz], by simp [h2]⟩
    · simp only [c1, c2, if_false]
      exact ⟨_, rfl, by intro z hz; rcases List.mem_cons.1 hz with rfl | hz; exacts [hy, hm z (by simp [hz])], by simp⟩

theorem mapInsert_by (H : Agrees lt P key) {k : α} (hk : P k) (v : ν) (m : List (α × ν)) (hm : ∀ p ∈ m, P p.1) :
    ∃ m', mapInsert lt k v m = .ok m' ∧ (∀ p ∈ m', P p.1) ∧
      m'.map (fun p => (key p.1, p.2)) = Stl.mapInsert (key k) v (m.map fun p => (key p.1, p.2)) := by
  induction m with
  | nil => exact ⟨[(k, v)], rfl, by simpa using hk, rfl⟩
  | cons q m ih =>
    obtain ⟨k', v'⟩ := q
    have hy : P k' := hm (k', v') (by simp)
    obtain ⟨m', e, h1, h2⟩ := ih fun z hz => hm z (by simp [hz])
    simp only [mapInsert, H k k' hk hy, H k' k hy hk, Out.ok_bind, List.map_cons, Stl.mapInsert, e, decide_eq_true_eq]
    by_cases c1 : key k < key k'
    · simp only [c1, if_true]
      exact ⟨_, rfl, by intro z hz; rcases List.mem_cons.1 hz with rfl | hz; exacts [hk, hm z hz], by simp⟩
    by_cases c2 : key k' < key k
    · simp only [c1, c2, if_true, if_false]
      exact ⟨_, rfl, by intro z hz; rcases List.mem_cons.1 hz with rfl | hz; exacts [hy, h1 z hz], by simp [h2]⟩
    · simp only [c1, c2, if_false]
      exact ⟨_, rfl, hm, by simp⟩

theorem mapErase_by (H : Agrees lt P key) {k : α} (hk : P k) (m : List (α × ν)) (hm : ∀ p ∈ m, P p.1) :
    ∃ m', mapErase lt k m = .ok m' ∧ (∀ p ∈ m', P p.1) ∧
      m'.map (fun p => (key p.1, p.2)) = Stl.mapErase (key k) (m.map fun p => (key p.1, p.2)) := by
  induction m with
  | nil => exact ⟨[], rfl, by simp, rfl⟩
  | cons q m ih =>
    obtain ⟨k', v'⟩ := q
    have hy : P k' := hm (k', v') (by simp)
    obtain ⟨m', e, h1, h2⟩ := ih fun z hz => hm z (by simp [hz])
    simp only [mapErase, H k k' hk hy, H k' k hy hk, Out.ok_bind, List.map_cons, Stl.mapErase, e, decide_eq_true_eq]
    by_cases c1 : key k < key k'
    · simp only [c1, if_true]
      exact ⟨_, rfl, hm, by simp⟩
    by_cases c2 : key k' < key k
    · simp only [c1, c2, if_true, if_false]
      exact ⟨_, rfl, by intro z hz; rcases List.mem_cons.1 hz with rfl | hz; exacts [hy, h1 z hz], by simp [h2]⟩
    · simp only [c1, c2, if_false]
      exact ⟨_, rfl, h1, h2⟩

theorem mapFind_by (H : Agrees lt P key) {k : α} (hk : P k) (m : List (α × ν)) (hm : ∀ p ∈ m, P p.1) :
    mapFind lt k m = .ok (Stl.mapFind (key k) (m.map fun p => (key p.1, p.2))) := by
  induction m with
  | nil => rfl
  | cons q m ih =>
    obtain ⟨k', v'⟩ := q
    have hy : P k' := hm (k', v') (by simp)
    simp only [mapFind, H k k' hk hy, H k' k hy hk, Out.ok_bind, List.map_cons, Stl.mapFind,
      ih fun z hz => hm z (by simp [hz]), decide_eq_true_eq]
    by_cases c1 : key k < key k'
    · simp [c1]
    by_cases c2 : key k' < key k
    · simp [c1, c2]
    · simp [c1, c2]

/-- A history of calls on a Map. -/
theorem map_by (H : Agrees lt P key) (dflt : ν) (calls : List (Map.Call α ν)) (hc : ∀ c ∈ calls, Spec.mapArg P c) :
    ∃ m, mapRun lt dflt calls = .ok m ∧ m.Pairwise (fun a b => key a.1 < key b.1) ∧
      (∀ k, P k → mapFind lt k m = .ok (Spec.valueBy dflt key (key k) calls.reverse)) ∧
      ∀ k v, (k, v) ∈ m.map (fun p => (key p.1, p.2)) ↔ Spec.valueBy dflt key k calls.reverse = some v := by
  have main : ∃ m, mapRun lt dflt calls = .ok m ∧ (∀ p ∈ m, P p.1) ∧
      (m.map fun p => (key p.1, p.2)).Pairwise (fun a b => a.1 < b.1) ∧
      ∀ k, Stl.mapFind k (m.map fun p => (key p.1, p.2)) = Spec.valueBy dflt key k calls.reverse := by
    induction calls using List.reverseRecOn with
    | nil => exact ⟨[], rfl, by simp, by simp, fun k => rfl⟩
    | append_singleton calls c ih =>
      obtain ⟨m, e, h1, h2, h3⟩ := ih fun c hc' => hc c (by simp [hc'])
      have ha := hc c (by simp)
      have e' : mapRun lt dflt (calls ++ [c]) = mapCall lt dflt m c := by
        unfold mapRun at e ⊢
        rw [List.foldlM_append, e, Out.ok_bind, List.foldlM_cons]
        cases mapCall lt dflt m c <;> rfl
      rw [e', List.reverse_append, List.reverse_cons, List.reverse_nil, List.nil_append, List.singleton_append]
      match c, ha with
      | .set x v, ha =>
        obtain ⟨s', e1, p1, p2⟩ := mapPut_by H ha v m h1
        refine ⟨s', e1, p1, by rw [p2]; exact mapPut_sorted h2 _ _, fun k => ?_⟩
        rw [p2, mapFind_put, h3, Spec.valueBy]
      | .index x, ha =>
        obtain ⟨s', e1, p1, p2⟩ := mapInsert_by H ha dflt m h1
        refine ⟨s', e1, p1, by rw [p2]; exact mapInsert_sorted h2 _ _, fun k => ?_⟩
        rw [p2, mapFind_insert, h3, Spec.valueBy]
      | .erase x, ha =>
        obtain ⟨s', e1, p1, p2⟩ := mapErase_by H ha m h1
        refine ⟨s', e1, p1, by rw [p2]; exact h2.sublist (mapErase_sub _), fun k => ?_⟩
        rw [p2, mapFind_erase h2, h3, Spec.valueBy]
      | .clear, _ => exact ⟨[], rfl, by simp, by simp, fun k => rfl⟩
  obtain ⟨m, e, h1, h2, h3⟩ := main
  refine ⟨m, e, (List.pairwise_map.1 h2).imp fun h => h, fun k hk => by rw [mapFind_by H hk m h1, h3], fun k v => ?_⟩
  rw [← h3, mapFind_iff h2]

/-! ### sort -/

theorem merge_by (H : Agrees lt P key) (a b : List α) (ha : ∀ y ∈ a, P y) (hb : ∀ y ∈ b, P y)
    (sa : a.Pairwise fun x y => key x ≤ key y) (sb : b.Pairwise fun x y => key x ≤ key y) :
    ∃ l, merge lt a b = .ok l ∧ l.Perm (a ++ b) ∧ l.Pairwise (fun x y => key x ≤ key y) ∧
      ∀ k, l.filter (fun x => key x = k) = a.filter (fun x => key x = k) ++ b.filter (fun x => key x = k) := by
  induction hn : a.length + b.length using Nat.strongRecOn generalizing a b with
  | ind n ih =>
    match a, b with
    | [], b => exact ⟨b, by rw [merge], by simp, sb, fun k => by simp⟩
    | x :: a, [] => exact ⟨x :: a, by rw [merge], by simp, sa, fun k => by simp⟩
    | x :: a, y :: b =>
      have hx := ha x (by simp)
      have hy := hb y (by simp)
      rw [merge, H y x hy hx, Out.ok_bind]
      simp only [decide_eq_true_eq]
      simp only [List.length_cons] at hn
      by_cases c : key y < key x
      · obtain ⟨l, e, p, s, f⟩ := ih _ (by simp only [List.length_cons]; omega) (x :: a) b ha
          (fun z hz => hb z (by simp [hz])) sa sb.of_cons rfl
        rw [if_pos c, e, Out.ok_bind]
        have pp : (y :: l).Perm (x :: a ++ y :: b) := (p.cons y).trans List.perm_middle.symm
        refine ⟨y :: l, rfl, pp, List.pairwise_cons.2 ⟨fun z hz => ?_, s⟩, fun k => ?_⟩
        · rcases List.mem_append.1 (p.mem_iff.1 hz) with h | h
          · rcases List.mem_cons.1 h with rfl | h
            · exact c.le
            · exact c.le.trans ((List.pairwise_cons.1 sa).1 z h)
          · exact (List.pairwise_cons.1 sb).1 z h
        · rw [List.filter_cons, f]
          by_cases ek : key y = k
          · have : (x :: a).filter (fun x => decide (key x = k)) = [] := by
              rw [List.filter_eq_nil_iff]
              intro z hz
              rcases List.mem_cons.1 hz with rfl | h
              · simp only [decide_eq_true_eq]; exact fun e' => absurd c (by rw [ek, e']; exact lt_irrefl _)
              · have := (List.pairwise_cons.1 sa).1 z h
                simp only [decide_eq_true_eq]
                exact fun e' => absurd (c.trans_le this) (by rw [ek, e']; exact lt_irrefl _)
            rw [this, if_pos (by simpa using ek), List.filter_cons (x := y), if_pos (by simpa using ek)]
            rfl
          · rw [if_neg (by simpa using ek), List.filter_cons (x := y), if_neg (by simpa using ek)]
      · obtain ⟨l, e, p, s, f⟩ := ih _ (by simp only [List.length_cons]; omega) a (y :: b)
          (fun z hz => ha z (by simp [hz])) hb sa.of_cons sb rfl
        rw [if_neg c, e, Out.ok_bind]
        refine ⟨x :: l, rfl, p.cons x, List.pairwise_cons.2 ⟨fun z hz => ?_, s⟩, fun k => ?_⟩
        · rcases List.mem_append.1 (p.mem_iff.1 hz) with h | h
          · exact (List.pairwise_cons.1 sa).1 z h
          · rcases List.mem_cons.1 h with rfl | h
            · exact not_lt.1 c
            · exact (not_lt.1 c).trans ((List.pairwise_cons.1 sb).1 z h)
        · rw [List.filter_cons, f, List.filter_cons (x := x)]
          by_cases e : key x = k
          · rw [if_pos (by simpa using e), if_pos (by simpa using e)]; rfl
          · rw [if_neg (by simpa using e), if_neg (by simpa using e)]

theorem sort_by (H : Agrees lt P key) (fuel : Nat) (l : List α) (hf : l.length < fuel) (hl : ∀ y ∈ l, P y) :
    ∃ l', sort lt fuel l = .ok l' ∧ l'.Perm l ∧ l'.Pairwise (fun x y => key x ≤ key y) ∧
      ∀ k, l'.filter (fun x => key x = k) = l.filter (fun x => key x = k) := by
  induction fuel generalizing l with
  | zero => omega
  | succ fuel ih =>
    rw [sort]
    by_cases h : l.length ≤ 1
    · rw [if_pos h]
      refine ⟨l, rfl, List.Perm.refl _, ?_, fun k => rfl⟩
      match l, h with
      | [], _ => exact .nil
      | [x], _ => simp
    · rw [if_neg h]
      obtain ⟨a, e1, p1, s1, f1⟩ := ih (l.take (l.length / 2)) (by rw [List.length_take]; omega)
        (fun y hy => hl y (List.mem_of_mem_take hy))
      obtain ⟨b, e2, p2, s2, f2⟩ := ih (l.drop (l.length / 2)) (by rw [List.length_drop]; omega)
        (fun y hy => hl y (List.mem_of_mem_drop hy))
      obtain ⟨m, e3, p3, s3, f3⟩ := merge_by H a b (fun y hy => hl y (List.mem_of_mem_take (p1.mem_iff.1 hy)))
        (fun y hy => hl y (List.mem_of_mem_drop (p2.mem_iff.1 hy))) s1 s2
      rw [e1, Out.ok_bind, e2, Out.ok_bind]
      refine ⟨m, e3, ?_, s3, fun k => ?_⟩
      · have := p3.trans (p1.append p2)
        rwa [List.take_append_drop] at this
      · rw [f3, f1, f2, ← List.filter_append, List.take_append_drop]

end Cont.By
