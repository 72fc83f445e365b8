import Verif.Model.AssocCmp
import Verif.Proof.Assoc
import Verif.Proof.Sequence
import Mathlib.Data.Prod.Lex

/-! # Lemmas on the comparison operators of Map, Set, MultiSet and MultiMap -/

namespace Cont
open Cpp

variable {κ ν α : Type}

theorem cmpEq_iff [DecidableEq α] (m : List α) : ∀ m' : List α, cmpEq m m' = true ↔ m = m' := by
  unfold cmpEq
  induction m with
  | nil => intro m'; cases m' <;> simp
  | cons x m ih =>
    intro m'
    cases m' with
    | nil => simp
    | cons y m' =>
      have := ih m'
      simp only [Bool.and_eq_true, decide_eq_true_eq] at this
      simp only [List.length_cons, List.zip_cons_cons, List.all_cons, Bool.and_eq_true, decide_eq_true_eq, List.cons.injEq,
        Nat.add_right_cancel_iff]
      rw [← this]
      tauto

theorem sorted_ext [LinearOrder α] {s t : List α} (hs : s.Pairwise (· < ·)) (ht : t.Pairwise (· < ·)) : s = t ↔ ∀ x, x ∈ s ↔ x ∈ t := by
  refine ⟨fun h x => by rw [h], fun h => ?_⟩
  have : s.Perm t := (List.perm_ext_iff_of_nodup (hs.imp fun h => h.ne) (ht.imp fun h => h.ne)).2 h
  exact this.eq_of_pairwise (fun a b _ _ h1 h2 => absurd (h1.trans h2) (lt_irrefl _)) hs ht

theorem sorted_ext_count [LinearOrder α] {s t : List α} (hs : s.Pairwise (· ≤ ·)) (ht : t.Pairwise (· ≤ ·)) :
    s = t ↔ ∀ x, s.count x = t.count x := by
  refine ⟨fun h x => by rw [h], fun h => ?_⟩
  exact (List.perm_iff_count.2 h).eq_of_pairwise (fun a b _ _ h1 h2 => le_antisymm h1 h2) hs ht

theorem sorted_lt [LinearOrder α] : ∀ {s t : List α}, s.Pairwise (· < ·) → t.Pairwise (· < ·) →
    (Stl.lexLt less s t = true ↔ ∃ x, (∀ y, y < x → (y ∈ s ↔ y ∈ t)) ∧
      (x ∈ s ∧ x ∉ t ∧ (∃ z ∈ t, x < z) ∨ x ∉ s ∧ x ∈ t ∧ ∀ z ∈ s, z < x))
  | s, [], _, _ => by
    cases s <;> simp [Stl.lexLt]
  | [], b :: t, _, ht => by
    rw [List.pairwise_cons] at ht
    simp only [Stl.lexLt, true_iff]
    refine ⟨b, fun y hy => ?_, .inr ⟨by simp, by simp, by simp⟩⟩
    constructor
    · intro h; cases h
    · intro h
      rcases List.mem_cons.1 h with rfl | h
      · exact absurd hy (lt_irrefl _)
      · exact absurd (hy.trans (ht.1 y h)) (lt_irrefl _)
  | a :: s, b :: t, hs, ht => by
    have hs' := List.pairwise_cons.1 hs
    have ht' := List.pairwise_cons.1 ht
    have hle : ∀ y ∈ a :: s, a ≤ y := fun y hy => by
      rcases List.mem_cons.1 hy with rfl | h
      · exact le_rfl
      · exact (hs'.1 y h).le
    have hle' : ∀ y ∈ b :: t, b ≤ y := fun y hy => by
      rcases List.mem_cons.1 hy with rfl | h
      · exact le_rfl
      · exact (ht'.1 y h).le
    rcases lt_trichotomy a b with h | h | h
    · have e : Stl.lexLt less (a :: s) (b :: t) = true := by simp [Stl.lexLt, less, h]
      rw [e]
      simp only [true_iff]
      refine ⟨a, fun y hy => ⟨fun hm => absurd (hle y hm) (not_le.2 hy), fun hm => absurd (hle' y hm) (not_le.2 (hy.trans h))⟩,
        .inl ⟨by simp, fun hm => absurd (hle' a hm) (not_le.2 h), b, by simp, h⟩⟩
    · subst h
      have e : Stl.lexLt less (a :: s) (a :: t) = Stl.lexLt less s t := by simp [Stl.lexLt, less]
      rw [e, sorted_lt hs'.2 ht'.2]
      have has : a ∉ s := fun hm => lt_irrefl _ (hs'.1 a hm)
      have hat : a ∉ t := fun hm => lt_irrefl _ (ht'.1 a hm)
      constructor
      · rintro ⟨x, hx, hc⟩
        have hax : a < x := by
          rcases hc with hc | hc
          · exact hs'.1 x hc.1
          · exact ht'.1 x hc.2.1
        refine ⟨x, fun y hy => by rw [List.mem_cons, List.mem_cons, hx y hy], ?_⟩
        rcases hc with ⟨h1, h2, z, h3, h4⟩ | ⟨h1, h2, h3⟩
        · exact .inl ⟨List.mem_cons_of_mem _ h1, by simp [h2, hax.ne'], z, List.mem_cons_of_mem _ h3, h4⟩
        · refine .inr ⟨by simp [h1, hax.ne'], List.mem_cons_of_mem _ h2, fun z hz => ?_⟩
          rcases List.mem_cons.1 hz with rfl | hz
          · exact hax
          · exact h3 z hz
      · rintro ⟨x, hx, hc⟩
        have hxa : x ≠ a := by
          rintro rfl
          rcases hc with hc | hc
          · exact hc.2.1 (by simp)
          · exact hc.1 (by simp)
        refine ⟨x, fun y hy => ?_, ?_⟩
        · by_cases hya : y = a
          · subst hya; simp [has, hat]
          · have := hx y hy
            simpa [hya] using this
        · rcases hc with ⟨h1, h2, z, h3, h4⟩ | ⟨h1, h2, h3⟩
          · have h1' : x ∈ s := by simpa [hxa] using h1
            refine .inl ⟨h1', fun hm => h2 (List.mem_cons_of_mem _ hm), z, ?_, h4⟩
            rcases List.mem_cons.1 h3 with rfl | h3
            · exact absurd (h4.trans (hs'.1 x h1')) (lt_irrefl _)
            · exact h3
          · exact .inr ⟨fun hm => h1 (List.mem_cons_of_mem _ hm), by simpa [hxa] using h2, fun z hz => h3 z (List.mem_cons_of_mem _ hz)⟩
    · have e : Stl.lexLt less (a :: s) (b :: t) = false := by simp [Stl.lexLt, less, h, not_lt.2 h.le]
      rw [e]
      simp only [Bool.false_eq_true, false_iff]
      rintro ⟨x, hx, hc⟩
      have hbx : b < x := by
        rcases hc with hc | hc
        · exact h.trans_le (hle x hc.1)
        · exact h.trans (hc.2.2 a (by simp))
      exact absurd (hle b ((hx b hbx).2 (by simp))) (not_le.2 h)

theorem lexLt_map {β : Type} (f : α → β) (lt : α → α → Bool) (lt' : β → β → Bool) (h : ∀ a b, lt a b = lt' (f a) (f b)) :
    ∀ l l' : List α, Stl.lexLt lt l l' = Stl.lexLt lt' (l.map f) (l'.map f)
  | _, [] => by simp [Stl.lexLt]
  | [], _ :: _ => by simp [Stl.lexLt]
  | x :: l, y :: l' => by simp [Stl.lexLt, h, lexLt_map f lt lt' h l l']

theorem pairLess_lex [LinearOrder κ] [LinearOrder ν] (a b : κ × ν) : pairLess a b = decide (toLex a < toLex b) := by
  rw [pairLess, Bool.eq_iff_iff]
  simp only [Bool.or_eq_true, Bool.and_eq_true, Bool.not_eq_true', decide_eq_true_eq, decide_eq_false_iff_not, Prod.Lex.toLex_lt_toLex]
  constructor
  · rintro (h | ⟨h, h'⟩)
    · exact .inl h
    · rcases lt_or_eq_of_le (not_lt.1 h) with h1 | h1
      · exact .inl h1
      · exact .inr ⟨h1, h'⟩
  · rintro (h | ⟨h, h'⟩)
    · exact .inl h
    · exact .inr ⟨by rw [h]; exact lt_irrefl _, h'⟩

/-- Lists whose elements are ordered by keys, with the same elements for every key, are equal. -/
theorem mmap_ext [LinearOrder κ] : ∀ {m m' : List (κ × ν)}, m.Pairwise (fun a b => a.1 ≤ b.1) → m'.Pairwise (fun a b => a.1 ≤ b.1) →
    (∀ k, m.filter (fun p => decide (p.1 = k)) = m'.filter (fun p => decide (p.1 = k))) → m = m'
  | [], [], _, _, _ => rfl
  | [], q :: m', _, _, h => by have := h q.1; simp at this
  | p :: m, [], _, _, h => by have := h p.1; simp at this
  | p :: m, q :: m', hm, hm', h => by
    have h1 := List.pairwise_cons.1 hm
    have h2 := List.pairwise_cons.1 hm'
    have hpq : p.1 = q.1 := by
      apply le_antisymm
      · have hq : q ∈ (p :: m).filter (fun r => decide (r.1 = q.1)) := by rw [h q.1]; simp
        rcases List.mem_cons.1 (List.mem_filter.1 hq).1 with rfl | hq
        · exact le_rfl
        · exact h1.1 q hq
      · have hp : p ∈ (q :: m').filter (fun r => decide (r.1 = p.1)) := by rw [← h p.1]; simp
        rcases List.mem_cons.1 (List.mem_filter.1 hp).1 with rfl | hp
        · exact le_rfl
        · exact h2.1 p hp
    have hk := h p.1
    simp only [List.filter_cons, decide_true, if_true, hpq] at hk
    injection hk with hk1 hk2
    subst hk1
    congr 1
    apply mmap_ext h1.2 h2.2
    intro k
    have := h k
    by_cases e : p.1 = k
    · simpa [List.filter_cons, e] using this
    · simpa [List.filter_cons, e] using this

theorem mmap_erased [LinearOrder κ] : ∀ (es : List κ) (m : List (κ × ν)), m.Pairwise (fun a b => a.1 ≤ b.1) →
    (es.foldl MultiMap.erase m).Pairwise (fun a b => a.1 ≤ b.1) ∧
    ∀ k, (es.foldl MultiMap.erase m).filter (fun p => decide (p.1 = k)) = if k ∈ es then [] else m.filter fun p => decide (p.1 = k) := by
  intro es
  induction es with
  | nil => intro m hm; exact ⟨hm, fun k => by simp⟩
  | cons e es ih =>
    intro m hm
    have he : MultiMap.erase m e = m.filter (fun p => decide (p.1 ≠ e)) := mapErase_eq hm e
    obtain ⟨h1, h2⟩ := ih (MultiMap.erase m e) (by rw [he]; exact hm.filter _)
    refine ⟨h1, fun k => ?_⟩
    rw [List.foldl_cons, h2, he, List.filter_filter]
    by_cases hk : k = e
    · subst hk
      have : (m.filter fun a => decide (a.1 = k) && decide (a.1 ≠ k)) = [] := by
        rw [List.filter_eq_nil_iff]; intro a _; simp
      rw [this]; simp
    · have : (fun a : κ × ν => decide (a.1 = k) && decide (a.1 ≠ e)) = fun a => decide (a.1 = k) := by
        funext a
        by_cases ha : a.1 = k
        · simp [ha, hk]
        · simp [ha]
      rw [this]
      simp [hk]

end Cont
