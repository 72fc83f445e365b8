import Verif.Proof.BigNumProg
import Verif.Proof.BigNumIndex

/-! # Sums with numbers that have been assigned to, and with copies -/

namespace BigNum
open Cpp Spec

theorem foldlM_same {α σ : Type} {f g : σ → α → Out σ} : ∀ (l : List α) (s : σ), (∀ a ∈ l, ∀ s, f s a = g s a) →
    l.foldlM f s = l.foldlM g s
  | [], _, _ => rfl
  | a :: l, s, h => by
    rw [List.foldlM_cons, List.foldlM_cons, h a (by simp) s]
    congr 1
    funext s'
    exact foldlM_same l s' fun b hb => h b (by simp [hb])

theorem foldlM_stuck {α σ : Type} {f : σ → α → Out σ} {a : α} (h : ∀ s r, f s a ≠ .ok r) : ∀ (l : List α) (s r : σ), a ∈ l →
    l.foldlM f s ≠ .ok r
  | [], _, _, m => absurd m (by simp)
  | b :: l, s, r, m => by
    rw [List.foldlM_cons]
    intro e
    obtain ⟨s', e1, e2⟩ := Out.bind_eq_ok.1 e
    rcases List.mem_cons.1 m with rfl | m
    · exact h s s' e1
    · exact foldlM_stuck h l s' r m e2

/-- The lowest `n` digits of a number. -/
theorem horner_low {c : Nat → Int} {n m : Nat} (hm : n ≤ m) (h : ∀ k, k < m → 0 ≤ c k ∧ c k ≤ 9) :
    horner c m % 10 ^ n = horner c n := by
  obtain ⟨e, rfl⟩ : ∃ e, m = n + e := ⟨m - n, by omega⟩
  clear hm
  induction e with
  | zero => exact Int.emod_eq_of_lt (horner_nonneg fun k hk => (h k (by omega)).1) (horner_lt fun k hk => h k (by omega))
  | succ e ih =>
    rw [← ih fun k hk => h k (by omega)]
    show (horner c (n + e) + c (n + e) * 10 ^ (n + e)) % _ = _
    rw [pow_add, ← mul_assoc, mul_comm (c _) (10 ^ n), mul_assoc, Int.add_mul_emod_self_left]

/-- The lowest `n` digits of a clean number. -/
theorem clean_mod {N : Nat} {b : Big} (h : Clean N b) {n : Nat} (hn : n ≤ N) : mag b % 10 ^ n = horner (digit b) n := by
  rw [← mag_ext h h.len le_rfl]
  exact horner_low hn fun k hk => let d := clean_digit h hk; ⟨d.2.1, d.2.2.1⟩

theorem stale_add {N : Nat} {d s t : Big} (hd : Clean N d) (hs : Clean N s) (ht : Clean N t) (hN : max s.len t.len < N) :
    ∃ r, add N (assign d s) t = .ok r ∧ Clean N r ∧ r.sign = s.sign ∧
      mag r = mag s + mag t + (mag d % 10 ^ max s.len t.len - mag d % 10 ^ s.len) := by
  set L := max s.len t.len with hL
  have hsL : s.len ≤ L := le_max_left _ _
  let c : Nat → Int := fun k => if k < s.len then digit s k else if k < L then digit d k else 0
  have hc9 : ∀ k, k < N → 0 ≤ c k ∧ c k ≤ 9 := by
    intro k hk
    have h1 := clean_digit hs hk
    have h2 := clean_digit hd hk
    simp only [c]
    split
    · exact ⟨h1.2.1, h1.2.2.1⟩
    · split
      · exact ⟨h2.2.1, h2.2.2.1⟩
      · omega
  have hr : Rep N ⟨N, fun k => some (c k)⟩ c := ⟨rfl, fun _ _ => rfl⟩
  obtain ⟨m, -, hmL, hm0, hmt⟩ := strip_spec hr L (by omega)
  have hz : ∀ k, m ≤ k → k < N → c k = 0 := by
    intro k h1 h2
    by_cases g : k < L
    · exact hm0 k h1 g
    · simp only [c]; rw [if_neg (by omega), if_neg g]
  obtain ⟨hC, hmag⟩ := clean_of_rep (sign := s.sign) hr (show m ≤ N by omega) hs.sign (fun k hk => hc9 k (by omega)) hz hmt
  have hmax : max m t.len = L := by
    rcases le_total t.len s.len with g | g
    · have e : L = s.len := max_eq_left g
      have : m = s.len := by
        by_contra hne
        have h0 : 0 < s.len := by omega
        have := hm0 (s.len - 1) (by omega) (by omega)
        simp only [c] at this
        rw [if_pos (by omega)] at this
        exact hs.top h0 this
      rw [this]
    · have e : L = t.len := max_eq_right g
      omega
  have hsame : add N (assign d s) t = add N ⟨⟨N, fun k => some (c k)⟩, m, s.sign⟩ t := by
    unfold add
    dsimp only
    rw [show (assign d s).len = s.len from rfl, hmax, ← hL]
    rw [foldlM_same (g := addCell ⟨⟨N, fun k => some (c k)⟩, m, s.sign⟩ t) (List.range L)]
    · rfl
    · intro i hi r
      have hi := List.mem_range.1 hi
      unfold addCell
      have e1 : (assign d s).elem.get i = .ok (c i) := by
        refine Arr.get_ok (show i < d.elem.size by rw [hd.size]; omega) ?_
        show (if i < s.len then s.elem.cell i else d.elem.cell i) = some (c i)
        simp only [c]
        split
        · exact (clean_digit hs (by omega)).1
        · exact (clean_digit hd (by omega)).1
      have e2 : (Arr.mk N fun k => some (c k)).get i = .ok (c i) := rep_get hr (by omega)
      rw [e1, e2]
  obtain ⟨r, e, h1, h2, h3⟩ := add_spec hC ht (show max m t.len < N by omega)
  refine ⟨r, by rw [hsame, e], h1, h3, ?_⟩
  rw [h2, hmag, clean_mod hd (by omega), clean_mod hd (by omega)]
  have key : horner c m = mag s + (horner (digit d) L - horner (digit d) s.len) := by
    rw [← horner_zero_ext hmL fun k h1 h2 => hm0 k h1 h2]
    have gen : ∀ e, s.len + e ≤ L → horner c (s.len + e) = mag s + (horner (digit d) (s.len + e) - horner (digit d) s.len) := by
      intro e
      induction e with
      | zero =>
        intro _
        rw [Nat.add_zero, sub_self, add_zero]
        exact horner_congr fun k hk => by simp only [c]; rw [if_pos hk]
      | succ e ih =>
        intro he
        have := ih (by omega)
        show horner c (s.len + e) + c (s.len + e) * 10 ^ (s.len + e) =
          mag s + (horner (digit d) (s.len + e) + digit d (s.len + e) * 10 ^ (s.len + e) - _)
        rw [this]
        have : c (s.len + e) = digit d (s.len + e) := by
          simp only [c]; rw [if_neg (by omega), if_pos (by omega)]
        rw [this]; ring
    have := gen (L - s.len) (by omega)
    rwa [show s.len + (L - s.len) = L by omega] at this
  rw [key]; ring

/-- A cell without a value. -/
theorem copy_cell (s : Big) {i : Nat} (h : s.len ≤ i) : ∀ v, (copy s).elem.get i ≠ .ok v := by
  intro v
  have : (copy s).elem.cell i = none := by
    show (if i < s.len then s.elem.cell i else none) = none
    rw [if_neg (by omega)]
  unfold Arr.get
  split
  · simp [this]
  · simp

end BigNum
