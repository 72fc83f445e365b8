import Verif.Spec.Assoc
import Mathlib.Order.Lattice

/-! # Helper lemmas for Map, Set, MultiSet, MultiMap -/

namespace Cont
open Cpp

variable {κ ν α : Type} [LinearOrder κ] [LinearOrder α]

/-! ## maps -/

theorem mapFind_iff {m : List (κ × ν)} (hs : m.Pairwise fun a b => a.1 < b.1) (k : κ) (v : ν) :
    Stl.mapFind k m = some v ↔ (k, v) ∈ m := by
  induction m with
  | nil => simp [Stl.mapFind]
  | cons p m ih =>
    obtain ⟨k', v'⟩ := p
    rw [List.pairwise_cons] at hs
    rw [Stl.mapFind, List.mem_cons]
    split
    · rename_i h
      constructor
      · intro h'; cases h'
      · rintro (h' | h')
        · cases h'; exact absurd h (lt_irrefl _)
        · exact absurd (lt_trans h (hs.1 _ h')) (lt_irrefl _)
    · rename_i h
      split
      · rename_i h1
        rw [ih hs.2]
        constructor
        · exact .inr
        · rintro (h' | h')
          · cases h'; exact absurd h1 (lt_irrefl _)
          · exact h'
      · rename_i h1
        have e : k = k' := le_antisymm (not_lt.1 h1) (not_lt.1 h)
        subst e
        constructor
        · intro h'; cases h'; exact .inl rfl
        · rintro (h' | h')
          · cases h'; rfl
          · exact absurd (hs.1 _ h') (lt_irrefl _)

theorem mapFind_none {m : List (κ × ν)} (hs : m.Pairwise fun a b => a.1 < b.1) (k : κ) :
    Stl.mapFind k m = none ↔ ∀ p ∈ m, p.1 ≠ k := by
  constructor
  · intro h p hp e
    have := (mapFind_iff hs k p.2).2 (by rw [← e]; exact hp)
    rw [h] at this
    cases this
  · intro h
    cases hf : Stl.mapFind k m with
    | none => rfl
    | some v => exact absurd rfl (h _ ((mapFind_iff hs k v).1 hf))

theorem mem_mapPut {m : List (κ × ν)} {k : κ} {v : ν} {p : κ × ν} (h : p ∈ Stl.mapPut k v m) : p.1 = k ∨ p ∈ m := by
  induction m with
  | nil => simp [Stl.mapPut] at h; exact .inl (by rw [h])
  | cons q m ih =>
    obtain ⟨k', v'⟩ := q
    rw [Stl.mapPut] at h
    split at h
    · rw [List.mem_cons] at h
      rcases h with rfl | h
      · exact .inl rfl
      · exact .inr h
    · split at h
      · rw [List.mem_cons] at h
        rcases h with rfl | h
        · exact .inr (by simp)
        · rcases ih h with h | h
          · exact .inl h
          · exact .inr (by simp [h])
      · rename_i h0 h1
        have e : k = k' := le_antisymm (not_lt.1 h1) (not_lt.1 h0)
        rw [List.mem_cons] at h
        rcases h with rfl | h
        · exact .inl e.symm
        · exact .inr (by simp [h])

theorem mapPut_sorted {m : List (κ × ν)} (hs : m.Pairwise fun a b => a.1 < b.1) (k : κ) (v : ν) :
    (Stl.mapPut k v m).Pairwise fun a b => a.1 < b.1 := by
  induction m with
  | nil => simp [Stl.mapPut]
  | cons q m ih =>
    obtain ⟨k', v'⟩ := q
    have hs' := hs
    rw [List.pairwise_cons] at hs
    rw [Stl.mapPut]
    split
    · rename_i h
      refine List.pairwise_cons.2 ⟨fun p hp => ?_, hs'⟩
      rw [List.mem_cons] at hp
      rcases hp with rfl | hp
      · exact h
      · exact lt_trans h (hs.1 p hp)
    · split
      · rename_i h
        refine List.pairwise_cons.2 ⟨fun p hp => ?_, ih hs.2⟩
        rcases mem_mapPut hp with e | hp
        · rw [e]; exact h
        · exact hs.1 p hp
      · exact List.pairwise_cons.2 ⟨hs.1, hs.2⟩

theorem mapFind_put {m : List (κ × ν)} (k k' : κ) (v : ν) :
    Stl.mapFind k' (Stl.mapPut k v m) = if k = k' then some v else Stl.mapFind k' m := by
  induction m with
  | nil =>
    rw [Stl.mapPut, Stl.mapFind, Stl.mapFind]
    rcases lt_trichotomy k' k with h | h | h
    · rw [if_pos h, if_neg h.ne']
    · subst h; simp
    · rw [if_neg (not_lt.2 h.le), if_pos h, if_neg h.ne]; rfl
  | cons q m ih =>
    obtain ⟨k1, v1⟩ := q
    rw [Stl.mapPut]
    rcases lt_trichotomy k k1 with h1 | h1 | h1
    · rw [if_pos h1, Stl.mapFind]
      rcases lt_trichotomy k' k with h | h | h
      · rw [if_pos h, if_neg h.ne', Stl.mapFind, if_pos (lt_trans h h1)]
      · subst h; simp
      · rw [if_neg (not_lt.2 h.le), if_pos h, if_neg h.ne]
    · subst h1
      rw [if_neg (lt_irrefl _), if_neg (lt_irrefl _), Stl.mapFind, Stl.mapFind]
      rcases lt_trichotomy k' k with h | h | h
      · rw [if_pos h, if_neg h.ne', if_pos h]
      · subst h; simp
      · rw [if_neg (not_lt.2 h.le), if_pos h, if_neg h.ne, if_neg (not_lt.2 h.le), if_pos h]
    · rw [if_neg (not_lt.2 h1.le), if_pos h1, Stl.mapFind, ih, Stl.mapFind]
      by_cases e : k = k'
      · subst e
        rw [if_pos rfl, if_neg (not_lt.2 h1.le), if_pos h1, if_pos rfl]
      · rw [if_neg e, if_neg e]

/-- `insert` of a pair leaves an existing one alone -/
theorem mapInsert_eq (m : List (κ × ν)) (k : κ) (v : ν) :
    (Stl.mapFind k m = none → Stl.mapInsert k v m = Stl.mapPut k v m) ∧
    (Stl.mapFind k m ≠ none → Stl.mapInsert k v m = m) := by
  induction m with
  | nil => simp [Stl.mapInsert, Stl.mapPut, Stl.mapFind]
  | cons q m ih =>
    obtain ⟨k1, v1⟩ := q
    rw [Stl.mapInsert, Stl.mapPut, Stl.mapFind]
    rcases lt_trichotomy k k1 with h1 | h1 | h1
    · rw [if_pos h1, if_pos h1, if_pos h1]; simp
    · subst h1
      simp
    · rw [if_neg (not_lt.2 h1.le), if_pos h1, if_neg (not_lt.2 h1.le), if_pos h1, if_neg (not_lt.2 h1.le), if_pos h1]
      exact ⟨fun h => by rw [ih.1 h], fun h => by rw [ih.2 h]⟩

theorem mapErase_sub {m : List (κ × ν)} (k : κ) : (Stl.mapErase k m).Sublist m := by
  induction m with
  | nil => exact .slnil
  | cons q m ih =>
    obtain ⟨k1, v1⟩ := q
    rw [Stl.mapErase]
    split
    · exact .refl _
    · split
      · exact ih.cons_cons _
      · exact ih.cons _

/-- erasing a key takes all pairs with that key away, and no other (also for multimaps) -/
theorem mapErase_eq {m : List (κ × ν)} (hs : m.Pairwise fun a b => a.1 ≤ b.1) (k : κ) :
    Stl.mapErase k m = m.filter (fun p => decide (p.1 ≠ k)) := by
  induction m with
  | nil => rfl
  | cons q m ih =>
    obtain ⟨k1, v1⟩ := q
    rw [List.pairwise_cons] at hs
    rw [Stl.mapErase]
    rcases lt_trichotomy k k1 with h1 | h1 | h1
    · rw [if_pos h1, List.filter_eq_self.2]
      intro p hp
      rw [List.mem_cons] at hp
      rcases hp with rfl | hp
      · simpa using h1.ne'
      · simpa using (lt_of_lt_of_le h1 (hs.1 p hp)).ne'
    · subst h1
      rw [if_neg (lt_irrefl _), if_neg (lt_irrefl _), ih hs.2]
      simp
    · rw [if_neg (not_lt.2 h1.le), if_pos h1, ih hs.2, List.filter_cons_of_pos (by simpa using h1.ne)]

theorem mapFind_erase {m : List (κ × ν)} (hs : m.Pairwise fun a b => a.1 < b.1) (k k' : κ) :
    Stl.mapFind k' (Stl.mapErase k m) = if k = k' then none else Stl.mapFind k' m := by
  have hs' : (Stl.mapErase k m).Pairwise fun a b => a.1 < b.1 := hs.sublist (mapErase_sub k)
  have e := mapErase_eq (hs.imp fun h => h.le) k
  split
  · subst_vars
    rw [mapFind_none hs', e]
    intro p hp
    rw [List.mem_filter] at hp
    simpa using hp.2
  · rename_i hk
    cases hf : Stl.mapFind k' m with
    | none =>
      rw [mapFind_none hs] at hf
      rw [mapFind_none hs', e]
      intro p hp
      exact hf p (List.mem_filter.1 hp).1
    | some v =>
      rw [mapFind_iff hs] at hf
      rw [mapFind_iff hs', e, List.mem_filter]
      exact ⟨hf, by simpa using Ne.symm hk⟩

/-- the Map after a history, and the value of a key in it -/
theorem map_history (dflt : ν) (h : List (Map.Call κ ν)) :
    (h.foldr (fun c m => Map.call dflt m c) []).Pairwise (fun a b => a.1 < b.1) ∧
    ∀ k, Stl.mapFind k (h.foldr (fun c m => Map.call dflt m c) []) = Spec.value dflt k h := by
  induction h with
  | nil => exact ⟨.nil, fun k => rfl⟩
  | cons c h ih =>
    obtain ⟨ih1, ih2⟩ := ih
    rw [List.foldr_cons]
    generalize h.foldr (fun c m => Map.call dflt m c) [] = m at ih1 ih2 ⊢
    cases c with
    | set k v =>
      refine ⟨mapPut_sorted ih1 k v, fun k' => ?_⟩
      rw [Map.call, Map.set, mapFind_put, Spec.value, ih2]
    | index k =>
      simp only [Map.call, Map.index, Spec.value, ← ih2]
      by_cases hf : Stl.mapFind k m = none
      · rw [(mapInsert_eq _ _ _).1 hf]
        refine ⟨mapPut_sorted ih1 _ _, fun k' => ?_⟩
        rw [mapFind_put]
        split
        · subst_vars; rw [hf]; rfl
        · rfl
      · rw [(mapInsert_eq _ _ _).2 hf]
        refine ⟨ih1, fun k' => ?_⟩
        split
        · rename_i e
          subst e
          cases hv : Stl.mapFind k m with
          | none => exact absurd hv hf
          | some v => rfl
        · rfl
    | erase k =>
      refine ⟨ih1.sublist (mapErase_sub k), fun k' => ?_⟩
      rw [Map.call, Map.erase, mapFind_erase ih1, Spec.value, ih2]
    | clear => exact ⟨.nil, fun k => rfl⟩

/-! ## sets and multisets -/

theorem mem_setInsert (s : List α) (x y : α) : y ∈ Stl.setInsert x s ↔ y = x ∨ y ∈ s := by
  induction s with
  | nil => simp [Stl.setInsert]
  | cons z s ih =>
    rw [Stl.setInsert]
    split
    · simp
    · split
      · rw [List.mem_cons, ih, List.mem_cons]
        exact or_left_comm
      · rename_i h0 h1
        have e : x = z := le_antisymm (not_lt.1 h1) (not_lt.1 h0)
        subst e
        simp

theorem setInsert_sorted {s : List α} (hs : s.Pairwise (· < ·)) (x : α) : (Stl.setInsert x s).Pairwise (· < ·) := by
  induction s with
  | nil => simp [Stl.setInsert]
  | cons z s ih =>
    have hs' := hs
    rw [List.pairwise_cons] at hs
    rw [Stl.setInsert]
    split
    · rename_i h
      refine List.pairwise_cons.2 ⟨fun y hy => ?_, hs'⟩
      rw [List.mem_cons] at hy
      rcases hy with rfl | hy
      · exact h
      · exact lt_trans h (hs.1 y hy)
    · split
      · rename_i h
        refine List.pairwise_cons.2 ⟨fun y hy => ?_, ih hs.2⟩
        rcases (mem_setInsert s x y).1 hy with rfl | hy
        · exact h
        · exact hs.1 y hy
      · exact hs'

theorem setErase_eq {s : List α} (hs : s.Pairwise (· ≤ ·)) (x : α) :
    Stl.setErase x s = s.filter (fun y => decide (y ≠ x)) := by
  induction s with
  | nil => rfl
  | cons z s ih =>
    rw [List.pairwise_cons] at hs
    rw [Stl.setErase]
    rcases lt_trichotomy x z with h1 | h1 | h1
    · rw [if_pos h1, List.filter_eq_self.2]
      intro y hy
      rw [List.mem_cons] at hy
      rcases hy with rfl | hy
      · simpa using h1.ne'
      · simpa using (lt_of_lt_of_le h1 (hs.1 y hy)).ne'
    · subst h1
      rw [if_neg (lt_irrefl _), if_neg (lt_irrefl _), ih hs.2]
      simp
    · rw [if_neg (not_lt.2 h1.le), if_pos h1, ih hs.2, List.filter_cons_of_pos (by simpa using h1.ne)]

theorem setFind_iff {s : List α} (hs : s.Pairwise (· ≤ ·)) (x : α) : Stl.setFind x s = true ↔ x ∈ s := by
  induction s with
  | nil => simp [Stl.setFind]
  | cons z s ih =>
    rw [List.pairwise_cons] at hs
    rw [Stl.setFind, List.mem_cons]
    rcases lt_trichotomy x z with h1 | h1 | h1
    · rw [if_pos h1]
      constructor
      · intro h; cases h
      · rintro (rfl | h)
        · exact absurd h1 (lt_irrefl _)
        · exact absurd (lt_of_lt_of_le h1 (hs.1 x h)) (lt_irrefl _)
    · subst h1; simp
    · rw [if_neg (not_lt.2 h1.le), if_pos h1, ih hs.2]
      simp [h1.ne']

theorem setCount_eq {s : List α} (hs : s.Pairwise (· ≤ ·)) (x : α) : Stl.setCount x s = s.count x := by
  induction s with
  | nil => rfl
  | cons z s ih =>
    rw [List.pairwise_cons] at hs
    rw [Stl.setCount, List.count_cons]
    rcases lt_trichotomy x z with h1 | h1 | h1
    · rw [if_pos h1, List.count_eq_zero.2]
      · simp [h1.ne']
      · intro h
        exact absurd (lt_of_lt_of_le h1 (hs.1 x h)) (lt_irrefl _)
    · subst h1; simp [ih hs.2]
    · rw [if_neg (not_lt.2 h1.le), if_pos h1, ih hs.2]
      simp [h1.ne]

theorem set_history (h : List (Set.Call α)) :
    (h.foldr (fun c s => Set.call s c) []).Pairwise (· < ·) ∧
    ∀ x, x ∈ h.foldr (fun c s => Set.call s c) [] ↔ Spec.mem x h = true := by
  induction h with
  | nil => exact ⟨.nil, fun k => by simp [Spec.mem]⟩
  | cons c h ih =>
    obtain ⟨ih1, ih2⟩ := ih
    rw [List.foldr_cons]
    cases c with
    | insert y =>
      refine ⟨setInsert_sorted ih1 y, fun x => ?_⟩
      rw [Set.call, Set.insert, mem_setInsert, ih2, Spec.mem]
      by_cases e : y = x
      · simp [e]
      · simp [e, Ne.symm e]
    | erase y =>
      have he := setErase_eq (ih1.imp fun h => h.le) y
      refine ⟨?_, fun x => ?_⟩
      · rw [Set.call, Set.erase, he]
        exact ih1.sublist List.filter_sublist
      · rw [Set.call, Set.erase, he, List.mem_filter, ih2, Spec.mem]
        by_cases e : y = x
        · simp [e]
        · simp [e, Ne.symm e]
    | clear => exact ⟨.nil, fun k => by simp [Set.call, Spec.mem]⟩

theorem count_msetInsert (s : List α) (x y : α) :
    (Stl.msetInsert x s).count y = if x = y then s.count y + 1 else s.count y := by
  induction s with
  | nil => simp [Stl.msetInsert, List.count_cons]
  | cons z s ih =>
    rw [Stl.msetInsert]
    split
    · rw [List.count_cons]
      simp
      split <;> simp
    · rw [List.count_cons, ih, List.count_cons]
      split <;> omega

theorem mem_msetInsert (s : List α) (x y : α) : y ∈ Stl.msetInsert x s ↔ y = x ∨ y ∈ s := by
  rw [← List.count_pos_iff, count_msetInsert, ← List.count_pos_iff]
  by_cases e : x = y
  · simp [e]
  · simp [e, Ne.symm e]

theorem msetInsert_sorted {s : List α} (hs : s.Pairwise (· ≤ ·)) (x : α) : (Stl.msetInsert x s).Pairwise (· ≤ ·) := by
  induction s with
  | nil => simp [Stl.msetInsert]
  | cons z s ih =>
    have hs' := hs
    rw [List.pairwise_cons] at hs
    rw [Stl.msetInsert]
    split
    · rename_i h
      refine List.pairwise_cons.2 ⟨fun y hy => ?_, hs'⟩
      rw [List.mem_cons] at hy
      rcases hy with rfl | hy
      · exact h.le
      · exact le_trans h.le (hs.1 y hy)
    · rename_i h
      refine List.pairwise_cons.2 ⟨fun y hy => ?_, ih hs.2⟩
      rcases (mem_msetInsert s x y).1 hy with rfl | hy
      · exact not_lt.1 h
      · exact hs.1 y hy

/-! ## multimaps -/

theorem mem_mmapInsert {m : List (κ × ν)} {k : κ} {v : ν} {p : κ × ν} : p ∈ Stl.mmapInsert k v m ↔ p = (k, v) ∨ p ∈ m := by
  induction m with
  | nil => simp [Stl.mmapInsert]
  | cons q m ih =>
    obtain ⟨k', v'⟩ := q
    rw [Stl.mmapInsert]
    split
    · simp
    · rw [List.mem_cons, ih, List.mem_cons]
      exact or_left_comm

theorem mmapInsert_sorted {m : List (κ × ν)} (hs : m.Pairwise fun a b => a.1 ≤ b.1) (k : κ) (v : ν) :
    (Stl.mmapInsert k v m).Pairwise fun a b => a.1 ≤ b.1 := by
  induction m with
  | nil => simp [Stl.mmapInsert]
  | cons q m ih =>
    obtain ⟨k', v'⟩ := q
    have hs' := hs
    rw [List.pairwise_cons] at hs
    rw [Stl.mmapInsert]
    split
    · rename_i h
      refine List.pairwise_cons.2 ⟨fun y hy => ?_, hs'⟩
      rw [List.mem_cons] at hy
      rcases hy with rfl | hy
      · exact h.le
      · exact le_trans h.le (hs.1 y hy)
    · rename_i h
      refine List.pairwise_cons.2 ⟨fun y hy => ?_, ih hs.2⟩
      rcases mem_mmapInsert.1 hy with rfl | hy
      · exact not_lt.1 h
      · exact hs.1 y hy

theorem mmapRange_eq {m : List (κ × ν)} (hs : m.Pairwise fun a b => a.1 ≤ b.1) (k : κ) :
    Stl.mmapRange k m = (m.filter (fun p => decide (p.1 = k))).map Prod.snd := by
  induction m with
  | nil => rfl
  | cons q m ih =>
    obtain ⟨k1, v1⟩ := q
    rw [List.pairwise_cons] at hs
    rw [Stl.mmapRange]
    rcases lt_trichotomy k k1 with h1 | h1 | h1
    · rw [if_pos h1, List.filter_eq_nil_iff.2]
      · rfl
      · intro p hp
        rw [List.mem_cons] at hp
        rcases hp with rfl | hp
        · simpa using h1.ne'
        · simpa using (lt_of_lt_of_le h1 (hs.1 p hp)).ne'
    · subst h1
      rw [if_neg (lt_irrefl _), if_neg (lt_irrefl _), ih hs.2]
      simp
    · rw [if_neg (not_lt.2 h1.le), if_pos h1, ih hs.2, List.filter_cons_of_neg (by simpa using h1.ne)]

theorem filter_mmapInsert {m : List (κ × ν)} (hs : m.Pairwise fun a b => a.1 ≤ b.1) (k k' : κ) (v : ν) :
    (Stl.mmapInsert k v m).filter (fun p => decide (p.1 = k')) =
      m.filter (fun p => decide (p.1 = k')) ++ if k = k' then [(k, v)] else [] := by
  induction m with
  | nil => by_cases h : k = k' <;> simp [Stl.mmapInsert, h]
  | cons q m ih =>
    obtain ⟨k1, v1⟩ := q
    rw [List.pairwise_cons] at hs
    rw [Stl.mmapInsert]
    split
    · rename_i h
      by_cases e : k = k'
      · subst e
        have hn : ((k1, v1) :: m).filter (fun p => decide (p.1 = k)) = [] := by
          rw [List.filter_eq_nil_iff]
          intro p hp
          rw [List.mem_cons] at hp
          rcases hp with rfl | hp
          · simpa using h.ne'
          · simpa using (lt_of_lt_of_le h (hs.1 p hp)).ne'
        rw [List.filter_cons_of_pos (by simp), hn]
        simp
      · rw [List.filter_cons_of_neg (by simpa using e), if_neg e, List.append_nil]
    · rw [List.filter_cons, ih hs.2, List.filter_cons]
      split <;> simp

theorem mmap_init (ps : List (κ × ν)) : (MultiMap.init ps).Pairwise (fun a b => a.1 ≤ b.1) ∧
    ∀ k, (MultiMap.init ps).filter (fun p => decide (p.1 = k)) = ps.filter (fun p => decide (p.1 = k)) := by
  unfold MultiMap.init
  suffices ∀ (ps m : List (κ × ν)), m.Pairwise (fun a b => a.1 ≤ b.1) →
      (ps.foldl (fun m p => Stl.mmapInsert p.1 p.2 m) m).Pairwise (fun a b => a.1 ≤ b.1) ∧
      ∀ k, (ps.foldl (fun m p => Stl.mmapInsert p.1 p.2 m) m).filter (fun p => decide (p.1 = k)) =
        m.filter (fun p => decide (p.1 = k)) ++ ps.filter (fun p => decide (p.1 = k)) by
    have h := this ps [] .nil
    exact ⟨h.1, fun k => by rw [h.2 k]; rfl⟩
  intro ps
  induction ps with
  | nil => intro m hm; exact ⟨hm, fun k => by simp⟩
  | cons p ps ih =>
    intro m hm
    have h := ih _ (mmapInsert_sorted hm p.1 p.2)
    refine ⟨h.1, fun k => ?_⟩
    rw [List.foldl_cons, h.2 k, filter_mmapInsert hm, List.filter_cons, List.append_assoc]
    obtain ⟨k1, v1⟩ := p
    by_cases e : k1 = k <;> simp [e]

theorem foldl_setInsert (xs : List α) : ∀ s : List α, s.Pairwise (· < ·) →
    (xs.foldl (fun s x => Stl.setInsert x s) s).Pairwise (· < ·) ∧
    ∀ y, y ∈ xs.foldl (fun s x => Stl.setInsert x s) s ↔ y ∈ xs ∨ y ∈ s := by
  induction xs with
  | nil => intro s hs; exact ⟨hs, fun y => by simp⟩
  | cons x xs ih =>
    intro s hs
    have h := ih _ (setInsert_sorted hs x)
    refine ⟨h.1, fun y => ?_⟩
    rw [List.foldl_cons, h.2, mem_setInsert, List.mem_cons]
    exact or_left_comm.trans (or_assoc.symm)

end Cont
