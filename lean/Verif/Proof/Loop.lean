import Verif.Cpp

/-! # Loop invariants for `for` loops written as monadic folds -/

namespace Cpp

theorem foldlM_range_inv {σ : Type} (f : σ → Nat → Out σ) (P : Nat → σ → Prop) (n : Nat) (s : σ)
    (h0 : P 0 s) (hs : ∀ k, k < n → ∀ s, P k s → ∃ s', f s k = .ok s' ∧ P (k + 1) s') :
    ∃ s', (List.range n).foldlM f s = .ok s' ∧ P n s' := by
  induction n with
  | zero => exact ⟨s, rfl, h0⟩
  | succ n ih =>
    obtain ⟨s1, e1, p1⟩ := ih (fun k hk => hs k (by omega))
    obtain ⟨s2, e2, p2⟩ := hs n (by omega) s1 p1
    refine ⟨s2, ?_, p2⟩
    rw [List.range_succ, List.foldlM_append, e1]
    simp [e2]

theorem foldlM_range'_inv {σ : Type} (f : σ → Nat → Out σ) (P : Nat → σ → Prop) (n : Nat) (s : σ)
    (h0 : P 0 s) (hs : ∀ k, k < n → ∀ s, P k s → ∃ s', f s (k + 1) = .ok s' ∧ P (k + 1) s') :
    ∃ s', (List.range' 1 n).foldlM f s = .ok s' ∧ P n s' := by
  have : List.range' 1 n = (List.range n).map (· + 1) := by
    apply List.ext_getElem <;> simp [Nat.add_comm]
  rw [this, List.foldlM_map]
  exact foldlM_range_inv (fun s k => f s (k + 1)) P n s h0 hs

/-- partial and total correctness at once: `T` is the condition under which no step fails -/
theorem foldlM_range_both {σ : Type} (f : σ → Nat → Out σ) (P : Nat → σ → Prop) (T : Prop) (n : Nat) (s : σ)
    (h0 : P 0 s) (hs : ∀ k, k < n → ∀ s, P k s →
      (∀ s', f s k = .ok s' → P (k + 1) s') ∧ (T → ∃ s', f s k = .ok s')) :
    (∀ s', (List.range n).foldlM f s = .ok s' → P n s') ∧
    (T → ∃ s', (List.range n).foldlM f s = .ok s') := by
  induction n with
  | zero =>
    refine ⟨fun s' h => ?_, fun _ => ⟨s, rfl⟩⟩
    have h : Out.ok s = Out.ok s' := h
    cases h; exact h0
  | succ n ih =>
    obtain ⟨i1, i2⟩ := ih (fun k hk => hs k (by omega))
    have e : (List.range (n + 1)).foldlM f s = ((List.range n).foldlM f s >>= fun s => f s n) := by
      rw [List.range_succ, List.foldlM_append]
      simp only [List.foldlM_cons, List.foldlM_nil, bind_pure]
    constructor
    · intro s' h
      rw [e] at h
      obtain ⟨s1, e1, h⟩ := Out.bind_eq_ok.mp h
      exact (hs n (by omega) s1 (i1 s1 e1)).1 s' h
    · intro t
      obtain ⟨s1, e1⟩ := i2 t
      obtain ⟨s2, e2⟩ := (hs n (by omega) s1 (i1 s1 e1)).2 t
      exact ⟨s2, by rw [e, e1]; exact e2⟩

end Cpp
