import Verif.Proof.MatrixTextDbl
import Verif.Props.MatrixText

/-! # C123: the text of a matrix of doubles -/

set_option exponentiation.threshold 2000

namespace Matrix
open Cpp Json

/-- C123 is false for `Matrix<double>` too, even with columns: the text has six places only, so the 1 x 1 matrices with the entries
2^-30 and 0 have the same text. -/
theorem C123_double_refuted : ∃ A B : Mat F64, A.alive = true ∧ B.alive = true ∧ A.row = 1 ∧ A.col = 1 ∧ B.row = 1 ∧ B.col = 1 ∧
    (A.elem 0 0).val = .fin (1 / 2 ^ 30) ∧ (B.elem 0 0).val = .fin 0 ∧
    toTextD A = .ok (bytes ['0', '.', '0', '0', '0', '0', '0', '0', '\n']) ∧ toTextD B = toTextD A :=
  ⟨⟨1, 1, fun _ _ => ⟨false, .fin (1 / 2 ^ 30)⟩, true⟩, ⟨1, 1, fun _ _ => ⟨false, .fin 0⟩, true⟩, rfl, rfl, rfl, rfl, rfl, rfl, rfl, rfl,
    by decide +kernel, by decide +kernel⟩

/-- **C123 for `Matrix<double>`, partial: up to a millionth.**  For matrices with columns the text is defined, and matrices of the
same text have the same number of rows and, if there is a row, of columns.  At each place both entries have the same sign bit,
both are finite or neither is, finite ones differ by at most a millionth, and those from 2^33 on are equal. -/
theorem C123_double_partial (A B : Mat F64) (ha : A.alive = true) (hb : B.alive = true) (hA : 1 ≤ A.col) (hB : 1 ≤ B.col)
    (okA : ∀ i j q, (A.elem i j).val = .fin q → Rand.Spec.IsDouble q ∧ Spec.SignBit (A.elem i j).neg q)
    (okB : ∀ i j q, (B.elem i j).val = .fin q → Rand.Spec.IsDouble q ∧ Spec.SignBit (B.elem i j).neg q) :
    ∃ s t, toTextD A = .ok s ∧ toTextD B = .ok t ∧ (s = t → A.row = B.row ∧ (1 ≤ A.row → A.col = B.col) ∧
      ∀ i < A.row, ∀ j < A.col, ((∃ q, (A.elem i j).val = .fin q) ↔ ∃ q, (B.elem i j).val = .fin q) ∧
        ∀ q r, (A.elem i j).val = .fin q → (B.elem i j).val = .fin r →
          (A.elem i j).neg = (B.elem i j).neg ∧ |q - r| ≤ 1 / 1000000 ∧ (2 ^ 33 ≤ |q| → 2 ^ 33 ≤ |r| → q = r)) := by
  refine ⟨_, _, toTextD_eq ha hA, toTextD_eq hb hB, fun h => ?_⟩
  have f : ∀ (M : Mat F64), ((List.range M.row).map fun i => rowTextD M i ++ [10]) =
      ((List.range M.row).map (rowTextD M)).map fun s => s ++ [10] := by
    intro M; simp
  rw [f, f] at h
  have e := lines_inj (fun s hs => by obtain ⟨i, -, rfl⟩ := List.mem_map.1 hs; exact rowTextD_line A i)
    (fun s hs => by obtain ⟨i, -, rfl⟩ := List.mem_map.1 hs; exact rowTextD_line B i) h
  have hr : A.row = B.row := by simpa using congrArg List.length e
  have row : ∀ i < A.row, rowTextD A i = rowTextD B i := by
    intro i hi
    have := congrArg (fun l => l[i]?) e
    simpa [hi, ← hr] using this
  refine ⟨hr, fun h1 => (rowTextD_inj hA hB (row 0 (by omega))).1, fun i hi j hj => ?_⟩
  have et := (rowTextD_inj hA hB (row i hi)).2 j hj
  refine ⟨⟨fun hq => toText_finite et hq, fun hq => toText_finite et.symm hq⟩, fun q r hq hr' => ?_⟩
  obtain ⟨d1, s1⟩ := okA i j q hq
  obtain ⟨d2, s2⟩ := okB i j r hr'
  generalize A.elem i j = x at *
  generalize B.elem i j = y at *
  obtain ⟨n, v⟩ := x
  obtain ⟨n', v'⟩ := y
  dsimp only at hq hr' s1 s2
  subst hq hr'
  obtain ⟨rfl, hm⟩ := toText_same et
  exact ⟨rfl, close_of_same s1 s2 hm, fun b1 b2 => eq_of_same s1 s2 d1 d2 b1 b2 hm⟩

/-- **C123 for `Matrix<double>`, the text itself.**  One line for each row; the entries as by `std::to_string`, separated by comma and
blank. -/
theorem C123_double_layout_partial (A : Mat F64) (ha : A.alive = true) (hc : 1 ≤ A.col) :
    toTextD A = .ok ((List.range A.row).map fun i =>
      List.intercalate (bytes [',', ' ']) ((List.range A.col).map fun j => (A.elem i j).toText) ++ [10]).flatten := by
  rw [toTextD_eq ha hc]
  congr 3
  funext i
  congr 1
  have key : ∀ (f : Nat → Str) (n k : Nat), List.intercalate (bytes [',', ' ']) ((List.range' k (n + 1)).map f) =
      f k ++ ((List.range' (k + 1) n).map fun j => bytes [',', ' '] ++ f j).flatten := by
    intro f n
    induction n with
    | zero => intro k; simp [List.intercalate]
    | succ n ih =>
      intro k
      have := ih (k + 1)
      rw [List.range'_succ] at this
      rw [List.range'_succ, List.range'_succ]
      simp only [List.map_cons, List.intercalate, List.intersperse_cons_cons, List.flatten_cons] at this ⊢
      rw [this]
      simp
  obtain ⟨n, hn⟩ : ∃ n, A.col = n + 1 := ⟨A.col - 1, by omega⟩
  unfold rowTextD
  rw [hn, List.range_eq_range', key]
  rfl

/-- A matrix meeting the hypotheses, and its text. -/
example : let A : Mat F64 := ⟨1, 2, fun _ j => if j = 0 then ⟨true, .fin (-3 / 2)⟩ else ⟨false, .inf false⟩, true⟩
    A.alive = true ∧ 1 ≤ A.col ∧
      toTextD A = .ok (bytes ['-', '1', '.', '5', '0', '0', '0', '0', '0', ',', ' ', 'i', 'n', 'f', '\n']) :=
  ⟨rfl, by decide, by decide +kernel⟩

example : let A : Mat F64 := ⟨1, 2, fun _ j => if j = 0 then ⟨true, .fin (-3 / 2)⟩ else ⟨false, .inf false⟩, true⟩
    ∀ i j q, (A.elem i j).val = .fin q → Rand.Spec.IsDouble q ∧ Spec.SignBit (A.elem i j).neg q := by
  intro A i j q h
  by_cases hj : j = 0
  · subst hj
    have e : A.elem i 0 = ⟨true, .fin (-3 / 2)⟩ := rfl
    rw [e] at h ⊢
    injection h with h
    subst h
    exact ⟨⟨-3, -1, by norm_num, by norm_num, by norm_num, by norm_num⟩, by norm_num [Spec.SignBit]⟩
  · have e : A.elem i j = ⟨false, .inf false⟩ := if_neg hj
    rw [e] at h
    cases h

end Matrix
