import Verif.Proof.Matrix
import Mathlib.Algebra.BigOperators.Field

/-! # Lemmas about `Matrix::reduce` over a field -/

namespace Matrix
open Cpp Spec

variable {α : Type} [Field α] [DecidableEq α]

theorem scanCol_spec {A : Mat α} {n m : Nat} {f : Nat → Nat → α} (hA : Holds A n m f) {r : Nat} (hr : r < m) :
    ∀ (k j : Nat), j + k = n → ∃ o, scanCol (Arith.exact α) A r k j = .ok o ∧
      (o = none → ∀ t, j ≤ t → t < n → f t r = 0) ∧ (∀ t, o = some t → j ≤ t ∧ t < n ∧ f t r ≠ 0) := by
  intro k
  induction k with
  | zero => intro j h; exact ⟨none, rfl, fun _ t h1 h2 => by omega, fun t h => by cases h⟩
  | succ k ih =>
    intro j h
    unfold scanCol
    rw [hget hA (show j < n by omega) hr, Out.ok_bind]
    by_cases hz : f j r = 0
    · rw [if_neg (by simpa [Arith.exact] using hz)]
      obtain ⟨o, e, h1, h2⟩ := ih (j + 1) (by omega)
      refine ⟨o, e, fun ho t ht htn => ?_, fun t ht => ?_⟩
      · by_cases e' : t = j
        · rw [e', hz]
        · exact h1 ho t (by omega) htn
      · have := h2 t ht
        exact ⟨by omega, this.2⟩
    · rw [if_pos (by simpa [Arith.exact] using hz)]
      refine ⟨some j, rfl, ?_, ?_⟩
      · intro h; cases h
      · intro t ht
        cases ht
        exact ⟨le_refl _, by omega, hz⟩

theorem seek_spec {A : Mat α} {n m : Nat} {f : Nat → Nat → α} (hA : Holds A n m f) {i : Nat} (hi : i < n) :
    ∀ (d r : Nat) (nz : Option (Option Nat)), r + d = m → (∀ t, i ≤ t → t < n → ∀ c, c < r → f t c = 0) →
      ∃ r' o, seek (Arith.exact α) A i r nz = .ok (r', o) ∧
        ((r ≤ r' ∧ r' < m ∧ (∃ t, o = some (some t) ∧ i ≤ t ∧ t < n ∧ f t r' ≠ 0) ∧
          (∀ t, i ≤ t → t < n → ∀ c, c < r' → f t c = 0)) ∨
         ((0 < d → o = some none) ∧ (d = 0 → o = nz) ∧ (∀ t, i ≤ t → t < n → ∀ c, c < m → f t c = 0))) := by
  intro d
  induction d with
  | zero =>
    intro r nz h hz
    unfold seek
    rw [if_neg (by rw [hA.col]; omega)]
    refine ⟨r, nz, rfl, .inr ⟨fun h => absurd h (by omega), fun _ => rfl, fun t h1 h2 c hc => hz t h1 h2 c (by omega)⟩⟩
  | succ d ih =>
    intro r nz h hz
    unfold seek
    rw [if_pos (by rw [hA.col]; omega), hA.row]
    obtain ⟨o, e, h1, h2⟩ := scanCol_spec hA (show r < m by omega) (n - i) i (by omega)
    rw [e, Out.ok_bind]
    cases o with
    | none =>
      dsimp only
      obtain ⟨r', o, e', h'⟩ := ih (r + 1) (some none) (by omega) (by
        intro t ht htn c hc
        by_cases hcr : c = r
        · rw [hcr]; exact h1 rfl t ht htn
        · exact hz t ht htn c (by omega))
      refine ⟨r', o, e', ?_⟩
      rcases h' with ⟨ha, hb, hc, hd⟩ | ⟨ha, hb, hc⟩
      · exact .inl ⟨by omega, hb, hc, hd⟩
      · refine .inr ⟨fun _ => ?_, fun h => absurd h (by omega), hc⟩
        by_cases hd : d = 0
        · exact hb hd
        · exact ha (by omega)
    | some t =>
      refine ⟨r, some (some t), rfl, .inl ⟨le_refl _, by omega, ⟨t, rfl, h2 t rfl⟩, hz⟩⟩

theorem normalise_spec {A : Mat α} {n m : Nat} {f : Nat → Nat → α} (hA : Holds A n m f) {i r : Nat} (hi : i < n)
    (hr : r < m) (hp : f i r ≠ 0) (hz : ∀ c, c < r → f i c = 0) :
    ∃ A', normalise (Arith.exact α) A i r = .ok A' ∧
      Holds A' n m (fun a b => if a = i then f i b / f i r else f a b) := by
  unfold normalise downTo
  rw [hA.col, List.foldlM_map]
  obtain ⟨A1, e1, h1⟩ := foldlM_range_inv
    (fun (A : Mat α) t => do
      let x ← A.get i (m - 1 - t)
      let y ← A.get i r
      A.set i (m - 1 - t) (← (Arith.exact α).div x y))
    (fun t A => Holds A n m (fun a b => if a = i ∧ m - 1 - t < b then f i b / f i r else f a b)) (m - 1 - r) A
    (hA.congr fun a _ b hb => by rw [if_neg (by omega)])
    (by
      intro t ht A hA
      rw [hget hA hi (show m - 1 - t < m by omega), Out.ok_bind, hget hA hi hr, Out.ok_bind,
        if_neg (by omega), if_neg (by omega)]
      simp only [Arith.exact, if_neg hp, Out.ok_bind]
      obtain ⟨A', e, h⟩ := hset hA hi (show m - 1 - t < m by omega) (f i (m - 1 - t) / f i r)
      refine ⟨A', e, h.congr fun a _ b hb => ?_⟩
      by_cases h1 : a = i ∧ b = m - 1 - t
      · rw [if_pos h1, if_pos (by omega), h1.2]
      · rw [if_neg h1]
        by_cases h2 : a = i ∧ m - 1 - t < b
        · rw [if_pos h2, if_pos (by omega)]
        · rw [if_neg h2, if_neg (by omega)])
  rw [e1, Out.ok_bind]
  obtain ⟨A', e, h⟩ := hset h1 hi hr (1 : α)
  refine ⟨A', e, h.congr fun a _ b hb => ?_⟩
  by_cases ha : a = i
  · subst ha
    by_cases hbr : b = r
    · subst hbr; rw [if_pos ⟨rfl, rfl⟩, if_pos rfl, div_self hp]
    · rw [if_neg (by omega), if_pos rfl]
      by_cases hb2 : r < b
      · rw [if_pos (by omega)]
      · rw [if_neg (by omega), hz b (by omega)]; simp
  · rw [if_neg (by omega), if_neg (by omega), if_neg ha]

theorem eliminate_spec {A : Mat α} {n m : Nat} {f : Nat → Nat → α} (hA : Holds A n m f) {i j r : Nat}
    (hi : i < n) (hj : j < n) (hij : i ≠ j) (hr : r < m) (hp : f i r = 1) (hz : ∀ c, c < r → f i c = 0) :
    ∃ A', eliminate (Arith.exact α) i r A j = .ok A' ∧
      Holds A' n m (fun a b => if a = j then f j b - f i b * f j r else f a b) := by
  unfold eliminate downTo
  rw [hA.col, List.foldlM_map]
  obtain ⟨A1, e1, h1⟩ := foldlM_range_inv
    (fun (A : Mat α) t => do
      let x ← A.get i (m - 1 - t)
      let y ← A.get j r
      let p ← (Arith.exact α).mul x y
      let z ← A.get j (m - 1 - t)
      A.set j (m - 1 - t) (← (Arith.exact α).sub z p))
    (fun t A => Holds A n m (fun a b => if a = j ∧ m - 1 - t < b then f j b - f i b * f j r else f a b))
    (m - 1 - r) A
    (hA.congr fun a _ b hb => by rw [if_neg (by omega)])
    (by
      intro t ht A hA
      rw [hget hA hi (show m - 1 - t < m by omega), Out.ok_bind, hget hA hj hr, Out.ok_bind,
        if_neg (by omega), if_neg (by omega), hget hA hj (show m - 1 - t < m by omega), if_neg (by omega)]
      simp only [Arith.exact, Out.ok_bind]
      obtain ⟨A', e, h⟩ := hset hA hj (show m - 1 - t < m by omega) (f j (m - 1 - t) - f i (m - 1 - t) * f j r)
      refine ⟨A', e, h.congr fun a _ b hb => ?_⟩
      by_cases h1 : a = j ∧ b = m - 1 - t
      · rw [if_pos h1, if_pos (by omega), h1.2]
      · rw [if_neg h1]
        by_cases h2 : a = j ∧ m - 1 - t < b
        · rw [if_pos h2, if_pos (by omega)]
        · rw [if_neg h2, if_neg (by omega)])
  rw [e1, Out.ok_bind]
  obtain ⟨A', e, h⟩ := hset h1 hj hr (0 : α)
  refine ⟨A', e, h.congr fun a _ b hb => ?_⟩
  by_cases ha : a = j
  · subst ha
    by_cases hbr : b = r
    · subst hbr; rw [if_pos ⟨rfl, rfl⟩, if_pos rfl, hp]; ring
    · rw [if_neg (by omega), if_pos rfl]
      by_cases hb2 : r < b
      · rw [if_pos (by omega)]
      · rw [if_neg (by omega), hz b (by omega)]; ring
  · rw [if_neg (by omega), if_neg (by omega), if_neg ha]

theorem eliminateAll_spec {A : Mat α} {n m : Nat} {f : Nat → Nat → α} (hA : Holds A n m f) {i r : Nat}
    (hi : i < n) (hr : r < m) (hp : f i r = 1) (hz : ∀ c, c < r → f i c = 0) :
    ∃ A', (List.range' (i + 1) (n - (i + 1))).foldlM (eliminate (Arith.exact α) i r) A = .ok A' ∧
      Holds A' n m (fun a b => if i < a then f a b - f i b * f a r else f a b) := by
  rw [List.range'_eq_map_range, List.foldlM_map]
  obtain ⟨A1, e1, h1⟩ := foldlM_range_inv
    (fun (A : Mat α) t => eliminate (Arith.exact α) i r A (i + 1 + t))
    (fun t A => Holds A n m (fun a b => if i < a ∧ a < i + 1 + t then f a b - f i b * f a r else f a b))
    (n - (i + 1)) A
    (hA.congr fun a _ b hb => by rw [if_neg (by omega)])
    (by
      intro t ht A hA
      obtain ⟨A', e, h⟩ := eliminate_spec hA hi (show i + 1 + t < n by omega) (by omega) hr
        (by rw [if_neg (by omega), hp]) (by intro c hc; rw [if_neg (by omega), hz c hc])
      refine ⟨A', e, h.congr fun a _ b hb => ?_⟩
      by_cases h1 : a = i + 1 + t
      · subst h1
        rw [if_pos rfl, if_neg (show ¬ (i < i + 1 + t ∧ i + 1 + t < i + 1 + t) by omega),
          if_neg (show ¬ (i < i + 1 + t ∧ i + 1 + t < i + 1 + t) by omega), if_neg (by omega), if_pos (by omega)]
      · rw [if_neg h1]
        by_cases h2 : i < a ∧ a < i + 1 + t
        · rw [if_pos h2, if_pos (by omega)]
        · rw [if_neg h2, if_neg (by omega)])
  refine ⟨A1, e1, h1.congr fun a ha b _ => ?_⟩
  by_cases h : i < a
  · rw [if_pos (by omega), if_pos h]
  · rw [if_neg (by omega), if_neg h]

omit [Field α] [DecidableEq α] in
theorem swap_holds {A : Mat α} {n m : Nat} {f : Nat → Nat → α} (hA : Holds A n m f) {s t : Nat} (hs : s < n)
    (ht : t < n) :
    Holds (swapRows A s t) n m (fun a b => if a = s then f t b else if a = t then f s b else f a b) := by
  refine ⟨hA.alive, hA.row, hA.col, fun a ha b hb => ?_⟩
  simp only [swapRows]
  split
  · exact hA.entry t ht b hb
  · split
    · exact hA.entry s hs b hb
    · exact hA.entry a ha b hb

omit [DecidableEq α] in
theorem swap_solves {n m : Nat} {f : Nat → Nat → α} {s t : Nat} (hs : s < n) (ht : t < n) (x : Nat → α) :
    Solves n m (fun a b => if a = s then f t b else if a = t then f s b else f a b) x ↔ Solves n m f x := by
  constructor
  · intro h i hi
    by_cases h1 : i = s
    · have := h t ht
      subst h1
      by_cases h2 : t = i
      · simpa [h2] using this
      · simpa [h2] using this
    · by_cases h2 : i = t
      · have := h s hs
        subst h2
        simpa using this
      · simpa [h1, h2] using h i hi
  · intro h i hi
    by_cases h1 : i = s
    · simpa [h1] using h t ht
    · by_cases h2 : i = t
      · subst h2; simpa [h1] using h s hs
      · simpa [h1, h2] using h i hi

omit [DecidableEq α] in
theorem step_solves {n m : Nat} {f : Nat → Nat → α} {i r : Nat} (hi : i < n) (hp : f i r ≠ 0) (x : Nat → α) :
    Solves n m (fun a b => if a = i then f i b / f i r else if i < a then f a b - f i b / f i r * f a r else f a b) x ↔
      Solves n m f x := by
  have e1 : ∀ a, ∑ b ∈ Finset.range m, f i b / f i r * f a r * x b =
      (∑ b ∈ Finset.range m, f i b * x b) * (f a r / f i r) := by
    intro a
    rw [Finset.sum_mul]
    exact Finset.sum_congr rfl fun b _ => by field_simp
  have e0 : ∑ b ∈ Finset.range m, f i b / f i r * x b = (∑ b ∈ Finset.range m, f i b * x b) / f i r := by
    rw [Finset.sum_div]
    exact Finset.sum_congr rfl fun b _ => by field_simp
  constructor
  · intro h
    have h0 : ∑ b ∈ Finset.range m, f i b * x b = 0 := by
      have := h i hi
      simp only [if_true] at this
      rw [e0, div_eq_zero_iff] at this
      exact this.resolve_right hp
    intro a ha
    have := h a ha
    by_cases h1 : a = i
    · rw [h1]; exact h0
    · by_cases h2 : i < a
      · simp only [if_neg h1, if_pos h2, sub_mul, Finset.sum_sub_distrib] at this
        rw [e1, h0, zero_mul, sub_zero] at this
        exact this
      · simpa only [if_neg h1, if_neg h2] using this
  · intro h a ha
    by_cases h1 : a = i
    · simp only [if_pos h1]
      rw [e0, h i hi, zero_div]
    · by_cases h2 : i < a
      · simp only [if_neg h1, if_pos h2, sub_mul, Finset.sum_sub_distrib]
        rw [e1, h i hi, zero_mul, sub_zero]
        exact h a ha
      · simpa only [if_neg h1, if_neg h2] using h a ha

/-- Rows `0..i-1` are finished, with leading columns `p`. -/
structure Inv (n m i r : Nat) (f : Nat → Nat → α) (p : Nat → Nat) : Prop where
  done : ∀ t, t < i → p t < m ∧ f t (p t) = 1 ∧ ∀ j, j < p t → f t j = 0
  mono : ∀ t t', t < t' → t' < i → p t < p t'
  below : ∀ t, t < i → ∀ a, i ≤ a → a < n → f a (p t) = 0
  le : ∀ t, t < i → p t ≤ r
  zero : ∀ a, i ≤ a → a < n → ∀ c, c < r → f a c = 0

theorem reduceLoop_spec {n m : Nat} : ∀ (k : Nat) (A : Mat α) (i r : Nat) (f : Nat → Nat → α) (p : Nat → Nat),
    Holds A n m f → i + k = n → r < m → Inv n m i r f p →
    ∃ R g, reduceLoop (Arith.exact α) k A i r = .ok R ∧ Holds R n m g ∧ Echelon n m g ∧
      ∀ x, Solves n m g x ↔ Solves n m f x := by
  intro k
  induction k with
  | zero =>
    intro A i r f p hA hk hr hI
    exact ⟨A, f, rfl, hA, ⟨n, p, le_refl _, fun t ht => hI.done t (by omega), fun t t' h h' => hI.mono t t' h (by omega),
      fun t h h' => absurd h (by omega)⟩, fun x => Iff.rfl⟩
  | succ k ih =>
    intro A i r f p hA hk hr hI
    unfold reduceLoop
    have hi : i < n := by omega
    obtain ⟨r', o, e, h⟩ := seek_spec hA hi (m - r) r none (by omega) hI.zero
    rw [e, Out.ok_bind]
    rcases h with ⟨hrr, hrm, ⟨t, rfl, hit, htn, hnz⟩, hz⟩ | ⟨ho, _, hz⟩
    · dsimp only
      have hS := swap_holds hA htn hi
      generalize hf1 : (fun a b => if a = t then f i b else if a = i then f t b else f a b) = f1 at hS
      have f1lt : ∀ a, a < i → ∀ b, f1 a b = f a b := by
        intro a ha b; rw [← hf1]; dsimp only; rw [if_neg (by omega), if_neg (by omega)]
      have f1i : ∀ b, f1 i b = f t b := by
        intro b; rw [← hf1]; dsimp only
        by_cases h : i = t
        · rw [if_pos h, h]
        · rw [if_neg h, if_pos rfl]
      have f1ge : ∀ c, (∀ a, i ≤ a → a < n → f a c = 0) → ∀ a, i ≤ a → a < n → f1 a c = 0 := by
        intro c hc a ha han
        rw [← hf1]; dsimp only
        split
        · exact hc i (le_refl _) hi
        · split
          · exact hc t hit htn
          · exact hc a ha han
      have hnz1 : f1 i r' ≠ 0 := by rw [f1i]; exact hnz
      have hz1 : ∀ a, i ≤ a → a < n → ∀ c, c < r' → f1 a c = 0 :=
        fun a ha han c hc => f1ge c (fun a ha han => hz a ha han c hc) a ha han
      obtain ⟨A1, e1, hA1⟩ := normalise_spec hS hi hrm hnz1 (hz1 i (le_refl _) hi)
      rw [e1, Out.ok_bind, hA1.row]
      obtain ⟨A2, e2, hA2⟩ := eliminateAll_spec hA1 hi hrm (by rw [if_pos rfl, div_self hnz1])
        (by intro c hc; rw [if_pos rfl, hz1 i (le_refl _) hi c hc, zero_div])
      rw [e2, Out.ok_bind]
      have hA2' : Holds A2 n m (fun a b => if a = i then f1 i b / f1 i r' else
          if i < a then f1 a b - f1 i b / f1 i r' * f1 a r' else f1 a b) := by
        refine hA2.congr fun a _ b _ => ?_
        by_cases h1 : a = i
        · simp [h1]
        · by_cases h2 : i < a
          · simp [h1, h2]
          · simp [h1, h2]
      have hp : ∀ t, t < i → p t < r' := by
        intro t' ht'
        have h1 := hI.le t' ht'
        by_contra h2
        have h3 : p t' = r' := by omega
        apply hnz
        rw [← h3]
        exact hI.below t' ht' t hit htn
      obtain ⟨R, g, eR, hR, hE, hSol⟩ := ih A2 (i + 1) r' _ (Function.update p i r') hA2' (by omega) hrm (by
        refine ⟨?_, ?_, ?_, ?_, ?_⟩
        · intro s hs
          by_cases h : s = i
          · subst h
            rw [Function.update_self]
            refine ⟨hrm, by rw [if_pos rfl, div_self hnz1], fun j hj => ?_⟩
            rw [if_pos rfl, hz1 s (le_refl _) hi j hj, zero_div]
          · rw [Function.update_of_ne h]
            have := hI.done s (by omega)
            refine ⟨this.1, ?_, fun j hj => ?_⟩
            · rw [if_neg h, if_neg (by omega), f1lt s (by omega)]; exact this.2.1
            · rw [if_neg h, if_neg (by omega), f1lt s (by omega)]; exact this.2.2 j hj
        · intro s s' h h'
          rw [Function.update_of_ne (show s ≠ i by omega)]
          by_cases h2 : s' = i
          · rw [h2, Function.update_self]; exact hp s (by omega)
          · rw [Function.update_of_ne h2]; exact hI.mono s s' h (by omega)
        · intro s hs a ha han
          rw [if_neg (by omega), if_pos (by omega)]
          by_cases h : s = i
          · rw [h, Function.update_self, div_self hnz1]; ring
          · rw [Function.update_of_ne h]
            have hb := f1ge (p s) (fun a ha han => hI.below s (by omega) a ha han)
            rw [hb a (by omega) han, hb i (le_refl _) hi]; simp
        · intro s hs
          by_cases h : s = i
          · rw [h, Function.update_self]
          · rw [Function.update_of_ne h]; exact (hp s (by omega)).le
        · intro a ha han c hc
          rw [if_neg (by omega), if_pos (by omega), hz1 a (by omega) han c hc, hz1 i (le_refl _) hi c hc]
          simp)
      refine ⟨R, g, eR, hR, hE, fun x => ?_⟩
      rw [hSol x, step_solves hi hnz1 x, ← hf1]
      exact swap_solves htn hi x
    · have ho' := ho (by omega)
      subst ho'
      refine ⟨A, f, rfl, hA, ⟨i, p, by omega, hI.done, hI.mono, hz⟩, fun x => Iff.rfl⟩

end Matrix
