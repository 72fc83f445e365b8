import Verif.Proof.MatrixReduce
import Verif.Spec.MatrixRank
import Mathlib.LinearAlgebra.Matrix.Echelon.Pivot
import Mathlib.LinearAlgebra.Matrix.ToLinearEquiv
import Mathlib.LinearAlgebra.Matrix.Block
import Mathlib.Data.Matrix.ColumnRowPartitioned

/-! # Lemmas about rank, systems and repeated reduction -/

namespace Matrix
open Cpp Spec

variable {α : Type} [Field α]

/-- a vector as a function on all numbers -/
def extend {m : Nat} (v : Fin m → α) (j : Nat) : α := if h : j < m then v ⟨j, h⟩ else 0

theorem block_mulVec {n m : Nat} (f : Nat → Nat → α) (v : Fin m → α) (i : Fin n) :
    (block n m f).mulVec v i = ∑ j ∈ Finset.range m, f i j * extend v j := by
  rw [Finset.sum_range]
  simp [Matrix.mulVec, dotProduct, block, extend]

theorem solves_block {n m : Nat} (f : Nat → Nat → α) (v : Fin m → α) :
    (block n m f).mulVec v = 0 ↔ Solves n m f (extend v) := by
  constructor
  · intro h i hi
    have := congrFun h ⟨i, hi⟩
    rw [block_mulVec] at this
    exact this
  · intro h
    funext i
    rw [block_mulVec]
    exact h i i.2

/-- Matrices with the same solutions have the same rank. -/
theorem rank_eq_of_ker {ι κ : Type} [Fintype ι] [Fintype κ] {m : Nat} (M : Matrix ι (Fin m) α) (M' : Matrix κ (Fin m) α)
    (h : ∀ v, M.mulVec v = 0 ↔ M'.mulVec v = 0) : M.rank = M'.rank := by
  have h1 := LinearMap.finrank_range_add_finrank_ker M.mulVecLin
  have h2 := LinearMap.finrank_range_add_finrank_ker M'.mulVecLin
  have h3 : M.mulVecLin.ker = M'.mulVecLin.ker := by
    ext v
    simp only [LinearMap.mem_ker, Matrix.mulVecLin_apply]
    exact h v
  rw [h3] at h1
  unfold Matrix.rank
  omega

/-- Matrices with the same solutions have the same row space. -/
theorem span_eq_of_ker {ι κ : Type} [Fintype ι] [Fintype κ] {m : Nat} (M : Matrix ι (Fin m) α) (M' : Matrix κ (Fin m) α)
    (h : ∀ v, M.mulVec v = 0 ↔ M'.mulVec v = 0) :
    Submodule.span α (Set.range M.row) = Submodule.span α (Set.range M'.row) := by
  have key : ∀ {ι κ : Type} [Fintype ι] [Fintype κ] (M : Matrix ι (Fin m) α) (M' : Matrix κ (Fin m) α),
      (∀ v, M.mulVec v = 0 ↔ M'.mulVec v = 0) →
      Submodule.span α (Set.range M.row) = Submodule.span α (Set.range (Matrix.fromRows M M').row) := by
    intro ι κ _ _ M M' h
    refine Submodule.eq_of_le_of_finrank_eq (Submodule.span_mono ?_) ?_
    · rintro _ ⟨i, rfl⟩
      exact ⟨.inl i, rfl⟩
    · rw [← Matrix.rank_eq_finrank_span_row, ← Matrix.rank_eq_finrank_span_row]
      refine rank_eq_of_ker _ _ fun v => ?_
      rw [Matrix.fromRows_mulVec]
      constructor
      · intro hv
        rw [hv, (h v).1 hv]
        funext x
        cases x <;> rfl
      · intro hv
        funext i
        exact congrFun hv (.inl i)
  rw [key M M' h, key M' M fun v => (h v).symm]
  congr 1
  ext x
  constructor
  · rintro ⟨i | i, rfl⟩
    · exact ⟨.inr i, rfl⟩
    · exact ⟨.inl i, rfl⟩
  · rintro ⟨i | i, rfl⟩
    · exact ⟨.inr i, rfl⟩
    · exact ⟨.inl i, rfl⟩

theorem block_ker {n m : Nat} {f g : Nat → Nat → α} (h : ∀ x, Solves n m g x ↔ Solves n m f x) (v : Fin m → α) :
    (block n m g).mulVec v = 0 ↔ (block n m f).mulVec v = 0 := by
  rw [solves_block, solves_block]
  exact h _

/-- the first columns of matrices with the same solutions have the same solutions -/
theorem solves_left {n m c : Nat} (hc : c ≤ m) {f g : Nat → Nat → α} (h : ∀ x, Solves n m g x ↔ Solves n m f x) (x : Nat → α) :
    Solves n c g x ↔ Solves n c f x := by
  have key : ∀ k : Nat → Nat → α, Solves n c k x ↔ Solves n m k (fun j => if j < c then x j else 0) := by
    intro k
    have : ∀ i, ∑ j ∈ Finset.range m, k i j * (if j < c then x j else 0) = ∑ j ∈ Finset.range c, k i j * x j := by
      intro i
      rw [← Finset.sum_subset (Finset.range_subset_range.2 hc)]
      · refine Finset.sum_congr rfl fun j hj => ?_
        rw [if_pos (Finset.mem_range.1 hj)]
      · intro j _ hj
        rw [if_neg (by simpa using hj), mul_zero]
    constructor
    · intro hs i hi
      rw [this]
      exact hs i hi
    · intro hs i hi
      rw [← this]
      exact hs i hi
  rw [key g, key f]
  exact h _

theorem system_solves {n c : Nat} (f : Nat → Nat → α) (x : Nat → α) :
    SolvesSystem n c f x ↔ Solves n (c + 1) f (Function.update x c (-1)) := by
  unfold SolvesSystem Solves
  refine forall_congr' fun i => imp_congr_right fun _ => ?_
  rw [Finset.sum_range_succ, Function.update_self]
  have : ∑ j ∈ Finset.range c, f i j * Function.update x c (-1) j = ∑ j ∈ Finset.range c, f i j * x j := by
    refine Finset.sum_congr rfl fun j hj => ?_
    rw [Function.update_of_ne (by have := Finset.mem_range.1 hj; omega)]
  rw [this]
  constructor
  · intro h; rw [h]; ring
  · intro h
    have := add_eq_zero_iff_eq_neg.1 h
    rw [this]; ring

/-! ### echelon forms -/

/-- the pivots of a row echelon form, for `Matrix.IsPivotedBy` -/
theorem echelon_rank [DecidableEq α] {n m k : Nat} {g : Nat → Nat → α} {p : Nat → Nat} (hk : k ≤ n)
    (h1 : ∀ i, i < k → p i < m ∧ g i (p i) = 1 ∧ ∀ j, j < p i → g i j = 0) (h2 : ∀ i i', i < i' → i' < k → p i < p i')
    (h3 : ∀ i, k ≤ i → i < n → ∀ j, j < m → g i j = 0) : (block n m g).rank = k := by
  have hp : (block n m g).IsPivotedBy
      (fun i : Fin n => if h : i.1 < k then ((⟨p i, (h1 i h).1⟩ : Fin m) : WithTop (Fin m)) else ⊤) := by
    rw [Matrix.isPivotedBy_iff]
    refine ⟨?_, ?_, ?_⟩
    · intro i i' hii
      dsimp only
      by_cases h' : i'.1 < k
      · have hle : i.1 ≤ i'.1 := hii
        rw [dif_pos (show i.1 < k by omega), dif_pos h', WithTop.coe_le_coe]
        rcases Nat.lt_or_eq_of_le hle with h | h
        · exact (h2 _ _ h h').le
        · have : i = i' := Fin.ext h
          subst this
          exact le_refl _
      · rw [dif_neg h']; exact le_top
    · intro i hi i' hi' hlt
      simp only [Set.mem_ofPred_eq, ne_eq, dite_eq_right_iff, WithTop.coe_ne_top, imp_false, not_not] at hi hi'
      dsimp only
      rw [dif_pos hi, dif_pos hi', WithTop.coe_lt_coe]
      exact h2 _ _ hlt hi'
    · intro i
      by_cases h : i.1 < k
      · simp only [dif_pos h]
        refine ⟨fun j hj => ?_, fun c hc => ?_⟩
        · rw [WithTop.coe_lt_coe] at hj
          exact (h1 i h).2.2 j hj
        · rw [WithTop.coe_inj] at hc
          subst hc
          show g i (p i) ≠ 0
          rw [(h1 i h).2.1]
          exact one_ne_zero
      · simp only [dif_neg h]
        refine ⟨fun j _ => h3 i (by omega) i.2 j j.2, fun c hc => ?_⟩
        exact absurd hc (by simp)
  rw [hp.rank_eq]
  simp only [ne_eq, dite_eq_right_iff, WithTop.coe_ne_top, imp_false, not_not]
  rw [Fin.card_filter_val_lt]
  omega

/-- the non-zero rows of an echelon form are its first `k` rows -/
theorem echelon_rows [DecidableEq α] {n m k : Nat} {g : Nat → Nat → α} {p : Nat → Nat} (hk : k ≤ n)
    (h1 : ∀ i, i < k → p i < m ∧ g i (p i) = 1 ∧ ∀ j, j < p i → g i j = 0)
    (h3 : ∀ i, k ≤ i → i < n → ∀ j, j < m → g i j = 0) :
    ((Finset.range n).filter fun i => ∃ j, j < m ∧ g i j ≠ 0).card = k := by
  have : ((Finset.range n).filter fun i => ∃ j, j < m ∧ g i j ≠ 0) = Finset.range k := by
    ext i
    simp only [Finset.mem_filter, Finset.mem_range]
    constructor
    · rintro ⟨hi, j, hj, hne⟩
      by_contra hc
      exact hne (h3 i (by omega) hi j hj)
    · intro hi
      refine ⟨by omega, p i, (h1 i hi).1, ?_⟩
      rw [(h1 i hi).2.1]
      exact one_ne_zero
  rw [this, Finset.card_range]

theorem pivot_ge {k : Nat} {p : Nat → Nat} (h2 : ∀ i i', i < i' → i' < k → p i < p i') : ∀ i, i < k → i ≤ p i := by
  intro i
  induction i with
  | zero => intro _; exact Nat.zero_le _
  | succ i ih =>
    intro h
    have := ih (by omega)
    have := h2 i (i + 1) (by omega) h
    omega

theorem triangular {n m k : Nat} {g : Nat → Nat → α} {p : Nat → Nat} (hn : n ≤ m)
    (h1 : ∀ i, i < k → p i < m ∧ g i (p i) = 1 ∧ ∀ j, j < p i → g i j = 0) (h2 : ∀ i i', i < i' → i' < k → p i < p i')
    (h3 : ∀ i, k ≤ i → i < n → ∀ j, j < m → g i j = 0) :
    (block n n g).det = ∏ i : Fin n, g i i ∧ ∀ i, i < n → g i i ≠ 0 → g i i = 1 := by
  refine ⟨?_, fun i hi hne => ?_⟩
  · refine Matrix.det_of_isUpperTriangular fun i j hij => ?_
    have hij' : j.1 < i.1 := hij
    show g i j = 0
    by_cases h : i.1 < k
    · exact (h1 i h).2.2 j (by have := pivot_ge h2 i h; omega)
    · exact h3 i (by omega) i.2 j (by omega)
  · by_cases h : i < k
    · have := pivot_ge h2 i h
      rcases Nat.lt_or_eq_of_le this with h' | h'
      · exact absurd ((h1 i h).2.2 i h') hne
      · have := (h1 i h).2.1
        rw [← h'] at this
        exact this
    · exact absurd (h3 i (by omega) hi i (by omega)) hne

theorem det_zero_iff {n : Nat} {f g : Nat → Nat → α} (h : ∀ x, Solves n n g x ↔ Solves n n f x) :
    (block n n g).det = 0 ↔ (block n n f).det = 0 := by
  rw [← Matrix.exists_mulVec_eq_zero_iff, ← Matrix.exists_mulVec_eq_zero_iff]
  exact exists_congr fun v => and_congr_right fun _ => block_ker h v

/-- An echelon form whose pivots are all coefficients has a solution. -/
theorem echelon_solvable {c k : Nat} {g : Nat → Nat → α} {p : Nat → Nat}
    (h1 : ∀ i, i < k → p i < c ∧ g i (p i) = 1 ∧ ∀ j, j < p i → g i j = 0) (h2 : ∀ i i', i < i' → i' < k → p i < p i') :
    ∃ x : Nat → α, ∀ i, i < k → ∑ j ∈ Finset.range c, g i j * x j = g i c := by
  have key : ∀ t, t ≤ k → ∃ x : Nat → α, ∀ i, k - t ≤ i → i < k → ∑ j ∈ Finset.range c, g i j * x j = g i c := by
    intro t
    induction t with
    | zero => intro _; exact ⟨fun _ => 0, fun i h h' => absurd h (by omega)⟩
    | succ t ih =>
      intro ht
      obtain ⟨x, hx⟩ := ih (by omega)
      obtain ⟨e, he⟩ : ∃ e, e = k - (t + 1) := ⟨_, rfl⟩
      have hek : e < k := by omega
      obtain ⟨q1, q2, q3⟩ := h1 e hek
      refine ⟨Function.update x (p e) (x (p e) + (g e c - ∑ j ∈ Finset.range c, g e j * x j)), fun i hi hik => ?_⟩
      have hs : ∀ d : α, ∑ j ∈ Finset.range c, g i j * Function.update x (p e) (x (p e) + d) j =
          ∑ j ∈ Finset.range c, g i j * x j + g i (p e) * d := by
        intro d
        have : ∀ j, g i j * Function.update x (p e) (x (p e) + d) j = g i j * x j + if j = p e then g i (p e) * d else 0 := by
          intro j
          by_cases hj : j = p e
          · subst hj; rw [Function.update_self, if_pos rfl]; ring
          · rw [Function.update_of_ne hj, if_neg hj, add_zero]
        rw [Finset.sum_congr rfl fun j _ => this j, Finset.sum_add_distrib, Finset.sum_ite_eq', if_pos (Finset.mem_range.2 q1)]
      rw [hs]
      by_cases hie : i = e
      · subst hie
        rw [q2]; ring
      · rw [(h1 i hik).2.2 (p e) (h2 e i (by omega) hik), hx i (by omega) hik]; ring
  obtain ⟨x, hx⟩ := key k (le_refl _)
  exact ⟨x, fun i hi => hx i (by omega) hi⟩

/-! ### reducing again -/

variable [DecidableEq α]

theorem reduceLoop_again {n m k : Nat} {g : Nat → Nat → α} {p : Nat → Nat}
    (h1 : ∀ i, i < k → p i < m ∧ g i (p i) = 1 ∧ ∀ j, j < p i → g i j = 0) (h2 : ∀ i i', i < i' → i' < k → p i < p i')
    (h3 : ∀ i, k ≤ i → i < n → ∀ j, j < m → g i j = 0) :
    ∀ (l : Nat) (A : Mat α) (i r : Nat), Holds A n m g → i + l = n → r < m → (∀ a, i ≤ a → a < n → ∀ c, c < r → g a c = 0) →
      ∃ R, reduceLoop (Arith.exact α) l A i r = .ok R ∧ Holds R n m g := by
  intro l
  induction l with
  | zero => intro A i r hA hl hr hz; exact ⟨A, rfl, hA⟩
  | succ l ih =>
    intro A i r hA hl hr hz
    unfold reduceLoop
    have hi : i < n := by omega
    obtain ⟨r', o, e, h⟩ := seek_spec hA hi (m - r) r none (by omega) hz
    rw [e, Out.ok_bind]
    rcases h with ⟨hrr, hrm, ⟨t, rfl, hit, htn, hnz⟩, hz'⟩ | ⟨ho, _, hz'⟩
    · dsimp only
      have htk : t < k := by
        by_contra hc
        exact hnz (h3 t (by omega) htn r' hrm)
      have hik : i < k := by omega
      have q1 : r' ≤ p i := by
        by_contra hc
        have := hz' i (le_refl _) hi (p i) (by omega)
        rw [(h1 i hik).2.1] at this
        exact one_ne_zero this
      have q2 : p t ≤ r' := by
        by_contra hc
        exact hnz ((h1 t htk).2.2 r' (by omega))
      have hti : t = i := by
        by_contra hc
        have := h2 i t (by omega) htk
        omega
      subst hti
      have hr' : r' = p t := by omega
      subst hr'
      obtain ⟨-, q3, q4⟩ := h1 t htk
      have hS : Holds (swapRows A t t) n m g := (swap_holds hA htn htn).congr fun a _ b _ => by
        by_cases h : a = t <;> simp [h]
      obtain ⟨A1, e1, hA1⟩ := normalise_spec hS hi hrm hnz q4
      rw [e1, Out.ok_bind, hA1.row]
      have hA1' : Holds A1 n m g := hA1.congr fun a _ b _ => by
        by_cases h : a = t
        · subst h; simp [q3]
        · simp [h]
      obtain ⟨A2, e2, hA2⟩ := eliminateAll_spec hA1' hi hrm q3 q4
      rw [e2, Out.ok_bind]
      have hbelow : ∀ a, t < a → a < n → g a (p t) = 0 := by
        intro a ha han
        by_cases hak : a < k
        · exact (h1 a hak).2.2 _ (h2 t a ha hak)
        · exact h3 a (by omega) han _ hrm
      have hA2' : Holds A2 n m g := hA2.congr fun a ha b _ => by
        by_cases h : t < a
        · rw [if_pos h, hbelow a h ha, mul_zero, sub_zero]
        · rw [if_neg h]
      exact ih A2 (t + 1) (p t) hA2' (by omega) hrm (fun a ha han c hc => hz' a (by omega) han c hc)
    · have ho' := ho (by omega)
      subst ho'
      exact ⟨A, rfl, hA⟩

end Matrix
