import Verif.Proof.EditDistance
import Verif.Proof.Kmp

/-! # Further facts about the recursive distance -/

namespace EditDistance
open Cpp

theorem lev_cons_cancel (x : Byte) (a b : Str) : lev (x :: a) (x :: b) = lev a b := by
  have h1 : lev a b ≤ lev a (x :: b) + 1 := by
    have := lev_le_cons x b a
    rwa [lev_symm b a, lev_symm (x :: b) a] at this
  have h2 : lev a b ≤ lev (x :: a) b + 1 := lev_le_cons x a b
  rw [lev_cons, if_pos rfl]
  omega

theorem lev_append_cancel (p a b : Str) : lev (p ++ a) (p ++ b) = lev a b := by
  induction p with
  | nil => rfl
  | cons x p ih => rw [List.cons_append, List.cons_append, lev_cons_cancel, ih]

theorem lev_append_cancel_right (a b s : Str) : lev (a ++ s) (b ++ s) = lev a b := by
  rw [← lev_reverse, List.reverse_append, List.reverse_append, lev_append_cancel, lev_reverse]

theorem Edits.prepend {n : Nat} {a b : Str} (p : Str) (h : Spec.Edits n a b) :
    Spec.Edits n (p ++ a) (p ++ b) := by
  induction p with
  | nil => exact h
  | cons x p ih => exact Edits.cons ih x

theorem lev_append_le (a a' b b' : Str) : lev (a ++ a') (b ++ b') ≤ lev a b + lev a' b' := by
  have h1 : Spec.Edits (lev a b) (a ++ a') (b ++ a') := by
    have := edits_lev (a ++ a') (b ++ a')
    rwa [lev_append_cancel_right] at this
  have h2 : Spec.Edits (lev a' b') (b ++ a') (b ++ b') := Edits.prepend b (edits_lev a' b')
  exact lev_le_of_edits (Edits.trans h1 h2)

theorem edits_sublist {a b : Str} (h : List.Sublist a b) : Spec.Edits (b.length - a.length) a b := by
  induction h with
  | slnil => exact .done _
  | cons x h ih =>
    rename_i l₁ l₂
    have hl := h.length_le
    have h1 : Spec.Edits 1 l₂ (x :: l₂) := .step (.insert [] x l₂) (.done _)
    have := Edits.trans ih h1
    rwa [show l₂.length - l₁.length + 1 = (x :: l₂).length - l₁.length by simp; omega] at this
  | cons_cons x h ih =>
    simpa using Edits.cons ih x

theorem sublist_of_lev {a b : Str} (h : lev a b + a.length = b.length) : List.Sublist a b := by
  induction hn : a.length + b.length using Nat.strongRecOn generalizing a b with
  | ind n ih =>
    match a, b with
    | [], b => exact List.nil_sublist b
    | x :: a, [] => simp at h
    | x :: a, y :: b =>
      rw [lev_cons] at h
      simp only [List.length_cons] at h hn
      have l1 := length_le_lev (y :: b) a
      rw [lev_symm] at l1
      simp only [List.length_cons] at l1
      have l2 := length_le_lev b a
      rw [lev_symm] at l2
      by_cases h2 : lev (x :: a) b + 1 + (a.length + 1) = b.length + 1
      · exact List.Sublist.cons y (ih _ (by simp only [List.length_cons]; omega) (a := x :: a) (b := b)
          (by simp only [List.length_cons]; omega) rfl)
      · by_cases hxy : x = y
        · subst hxy
          rw [if_pos rfl] at h
          exact List.Sublist.cons_cons x (ih _ (by omega) (by omega) rfl)
        · rw [if_neg hxy] at h
          omega

theorem lev_disjoint {a b : Str} (h : ∀ c, c ∈ a → c ∉ b) : lev a b = max a.length b.length := by
  induction hn : a.length + b.length using Nat.strongRecOn generalizing a b with
  | ind n ih =>
    match a, b with
    | [], b => rw [lev_nil_left]; simp
    | x :: a, [] => rw [lev_nil_right]; simp
    | x :: a, y :: b =>
      have hxy : x ≠ y := fun e => h x (List.mem_cons_self ..) (e ▸ List.mem_cons_self ..)
      simp only [List.length_cons] at hn
      rw [lev_cons, if_neg hxy,
        ih _ (by simp only [List.length_cons]; omega) (a := a) (b := y :: b) (fun c hc => h c (List.mem_cons_of_mem _ hc)) rfl,
        ih _ (by simp only [List.length_cons]; omega) (a := x :: a) (b := b) (fun c hc hb => h c hc (List.mem_cons_of_mem _ hb)) rfl,
        ih _ (by omega) (a := a) (b := b)
          (fun c hc hb => h c (List.mem_cons_of_mem _ hc) (List.mem_cons_of_mem _ hb)) rfl]
      simp only [List.length_cons]
      omega

theorem lev_hamming (a b : Str) (h : a.length = b.length) :
    lev a b ≤ ((a.zip b).filter fun p => p.1 ≠ p.2).length := by
  induction a generalizing b with
  | nil => cases b with
    | nil => rw [lev_nil_left]; simp
    | cons y b => simp at h
  | cons x a ih => cases b with
    | nil => simp at h
    | cons y b =>
      have := ih b (by simpa using h)
      rw [lev_cons, List.zip_cons_cons, List.filter_cons]
      by_cases hxy : x = y
      · simp [hxy]
        simp at this
        omega
      · simp [hxy]
        simp at this
        omega

end EditDistance
