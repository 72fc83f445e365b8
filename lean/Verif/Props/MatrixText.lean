import Verif.Proof.MatrixText
import Verif.Proof.Decimal

/-! # C123: the text of a matrix -/

namespace Matrix
open Cpp

/-- The property C123: `toString` is defined for every matrix. -/
def C123 : Prop := ∀ A : Mat Int, A.alive = true → ∃ s, toText A = .ok s

/-- C123 is false: `A[i][0]` is read even if there are no columns. -/
theorem C123_refuted : ¬ C123 := by
  intro h
  obtain ⟨s, e⟩ := h (new Arith.ofInt 1 0) rfl
  have : toText (new Arith.ofInt 1 0) = .ub := rfl
  rw [this] at e
  cases e

/-- **C123, exact domain.**  The text of a matrix is defined if and only if there is a column, or no row. -/
theorem C123_exact_partial (A : Mat Int) (ha : A.alive = true) :
    (1 ≤ A.col ∨ A.row = 0 → ∃ s, toText A = .ok s) ∧ (A.col = 0 → 1 ≤ A.row → toText A = .ub) := by
  refine ⟨?_, fun hc hr => ?_⟩
  · rintro (h | h)
    · exact ⟨_, toText_eq ha h⟩
    · exact ⟨[], by unfold toText; rw [h]; rfl⟩
  · obtain ⟨n, hn⟩ : ∃ n, A.row = n + 1 := ⟨A.row - 1, by omega⟩
    unfold toText
    rw [hn, List.range_succ_eq_map, List.foldlM_cons]
    have : A.get 0 0 = .ub := by
      unfold Mat.get
      simp [hc]
    unfold toTextStep
    rw [this]
    rfl

example : toText (new Arith.ofInt 3 0) = .ub := (C123_exact_partial _ rfl).2 rfl (by decide)

/-- **C123, partial: matrices with columns.**  The text is defined, and different matrices have different texts: matrices
of the same text have the same number of rows and, if there is a row, the same number of columns and the same entries. -/
theorem C123_partial (A B : Mat Int) (ha : A.alive = true) (hb : B.alive = true) (hA : 1 ≤ A.col) (hB : 1 ≤ B.col) :
    ∃ s t, toText A = .ok s ∧ toText B = .ok t ∧ (s = t → A.row = B.row ∧ (1 ≤ A.row → A.col = B.col) ∧
      ∀ i < A.row, ∀ j < A.col, A.elem i j = B.elem i j) := by
  refine ⟨_, _, toText_eq ha hA, toText_eq hb hB, fun h => ?_⟩
  have f : ∀ (M : Mat Int), ((List.range M.row).map fun i => rowText M i ++ [10]) = ((List.range M.row).map (rowText M)).map fun s => s ++ [10] := by
    intro M; simp
  rw [f, f] at h
  have e := lines_inj (fun s hs => by obtain ⟨i, -, rfl⟩ := List.mem_map.1 hs; exact rowText_line A i)
    (fun s hs => by obtain ⟨i, -, rfl⟩ := List.mem_map.1 hs; exact rowText_line B i) h
  have hr : A.row = B.row := by simpa using congrArg List.length e
  have row : ∀ i < A.row, rowText A i = rowText B i := by
    intro i hi
    have := congrArg (fun l => l[i]?) e
    simpa [hi, ← hr] using this
  exact ⟨hr, fun h1 => (rowText_inj hA hB (row 0 (by omega))).1, fun i hi => (rowText_inj hA hB (row i hi)).2⟩

example : ∃ A B, ofRows Arith.ofInt [[1, -2], [30, 4]] = .ok A ∧ ofRows Arith.ofInt [[1, -2, 30, 4]] = .ok B ∧ A.alive = true ∧
    B.alive = true ∧ 1 ≤ A.col ∧ 1 ≤ B.col := ⟨_, _, rfl, rfl, rfl, rfl, by decide, by decide⟩

/-- **C123, the text itself.**  One line for each row; the entries in decimal (`BigNum.Spec.decimal`), separated by comma and blank. -/
theorem C123_layout_partial (rows : List (List Int)) (c : Nat) (hr : rows ≠ []) (hc : 1 ≤ c) (hl : ∀ r ∈ rows, r.length = c) :
    ∃ A, ofRows Arith.ofInt rows = .ok A ∧
      toText A = .ok (rows.map fun r => List.intercalate (bytes [',', ' ']) (r.map BigNum.Spec.decimal) ++ [10]).flatten := by
  rw [← show Json.decInt = BigNum.Spec.decimal from funext Json.decInt_decimal]
  obtain ⟨first, rest, rfl⟩ := List.exists_cons_of_ne_nil hr
  have hf : first.length = c := hl first (by simp)
  refine ⟨⟨(first :: rest).length, first.length, fun i j => ((first :: rest).getD i []).getD j 0, true⟩, ?_, ?_⟩
  · simp only [ofRows]
    rw [if_pos (fun r hr => by rw [hf, hl r hr])]
    rfl
  · rw [toText_eq rfl (by simp only; omega)]
    congr 2
    have key : ∀ r : List Int, 1 ≤ r.length → List.intercalate (bytes [',', ' ']) (r.map Json.decInt) =
        Json.decInt (r.getD 0 0) ++ ((List.range' 1 (r.length - 1)).map fun j => bytes [',', ' '] ++ Json.decInt (r.getD j 0)).flatten := by
      intro r h
      cases r with
      | nil => simp at h
      | cons x r =>
        have : ∀ (r : List Int) (x : Int), List.intercalate (bytes [',', ' ']) ((x :: r).map Json.decInt) =
            Json.decInt x ++ (r.map fun y => bytes [',', ' '] ++ Json.decInt y).flatten := by
          intro r
          induction r with
          | nil => intro x; simp [List.intercalate]
          | cons y r ih =>
            intro x
            have := ih y
            simp only [List.map_cons, List.intercalate, List.intersperse_cons_cons, List.flatten_cons] at this ⊢
            rw [this]
            simp
        rw [this]
        congr 2
        apply List.ext_getElem
        · simp
        · intro k h1 h2
          simp at h1
          simp [List.getElem_range', Nat.add_comm 1 k, h1]
    apply List.ext_getElem
    · simp
    · intro k h1 h2
      simp at h1
      have hk : k < (first :: rest).length := by simpa using h1
      rw [List.getElem_map, List.getElem_map, List.getElem_range, key _ (by rw [hl _ (List.getElem_mem hk)]; exact hc)]
      simp only [rowText]
      have e : (first :: rest).getD k [] = (first :: rest)[k] := by rw [List.getD, List.getElem?_eq_getElem hk]; rfl
      rw [e, hl _ (List.getElem_mem hk), hf]

example : (do toText (← ofRows Arith.ofInt [[1, -2], [30, 4]])) =
    .ok (bytes ['1', ',', ' ', '-', '2', '\n', '3', '0', ',', ' ', '4', '\n']) := by decide +kernel

example : ∃ A, ofRows Arith.ofInt [[1, -2], [30, 4]] = .ok A ∧
    toText A = .ok ([[1, -2], [30, 4]].map fun r => List.intercalate (bytes [',', ' ']) (r.map BigNum.Spec.decimal) ++ [10]).flatten :=
  C123_layout_partial _ 2 (by simp) (by omega) (by simp)

end Matrix
