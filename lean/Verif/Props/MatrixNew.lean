import Verif.Props.Matrix

/-! # C74: matrices made from their size -/

namespace Matrix
open Cpp Spec

/-- C74: `Matrix(n, m)` has `n` rows and `m` columns of zeros, `Matrix(n)` is `Matrix(n, n)`: every entry inside reads as zero,
every index outside is undefined, and over a field adding it changes nothing and multiplying by it gives zeros. -/
theorem C74_zero {α : Type} [Field α] [DecidableEq α] (ar : Arith α) (A : Mat α) (n m l : Nat) (f : Nat → Nat → α)
    (hA : Holds A n m f) :
    (∀ i j, (new ar n m).get i j = if i < n ∧ j < m then .ok ar.zero else .ub) ∧
    (∀ i j, (newSquare ar n).get i j = if i < n ∧ j < n then .ok ar.zero else .ub) ∧
    eq (newSquare ar n) (new ar n n) = .ok true ∧
    eq (new ar n m) (new ar l m) = .ok (decide (n = l)) ∧
    (∃ R, plus (Arith.exact α) A (new (Arith.exact α) n m) = .ok R ∧ Holds R n m f) ∧
    (∃ R, minus (Arith.exact α) A (new (Arith.exact α) n m) = .ok R ∧ Holds R n m f) ∧
    (∃ R, times (Arith.exact α) A (new (Arith.exact α) m l) = .ok R ∧ Holds R n l fun _ _ => 0) ∧
    (∃ R, times (Arith.exact α) A (newSquare (Arith.exact α) m) = .ok R ∧ Holds R n m fun _ _ => 0) := by
  have hn (ar : Arith α) (a b : Nat) : Holds (new ar a b) a b fun _ _ => ar.zero := ⟨rfl, rfl, rfl, fun _ _ _ _ => rfl⟩
  have ex (l : Nat) := C29_exact A (new (Arith.exact α) n m) n m l f (fun _ _ => 0) hA
  have mul (l : Nat) : ∃ R, times (Arith.exact α) A (new (Arith.exact α) m l) = .ok R ∧ Holds R n l fun _ _ => 0 := by
    obtain ⟨R, e, h⟩ := (C29_exact A (new (Arith.exact α) m l) n m l f (fun _ _ => 0) hA).2.2.2.2 (hn _ m l)
    refine ⟨R, e, ?_⟩
    simpa using h
  refine ⟨fun i j => ?_, fun i j => ?_, ?_, ?_, ?_, ?_, mul l, mul m⟩
  · show (if true = true ∧ i < n ∧ j < m then _ else _) = _
    simp [new]
  · show (if true = true ∧ i < n ∧ j < n then _ else _) = _
    simp [newSquare, new]
  · rw [(C74_values ar (newSquare ar n) (new ar n n) n n n n _ _ (hn ar n n) (hn ar n n)).2.2.1]
    simp
  · rw [(C74_values ar (new ar n m) (new ar l m) n m l m _ _ (hn ar n m) (hn ar l m)).2.2.1]
    simp
  · obtain ⟨R, e, h⟩ := (ex l).1 (hn _ n m)
    exact ⟨R, e, by simpa using h⟩
  · obtain ⟨R, e, h⟩ := (ex l).2.1 (hn _ n m)
    exact ⟨R, e, by simpa using h⟩

example : Holds (⟨1, 2, fun _ j => (j : ℚ), true⟩ : Mat ℚ) 1 2 (fun _ j => (j : ℚ)) := ⟨rfl, rfl, rfl, fun _ _ _ _ => rfl⟩

example : (newSquare Arith.ofInt 2).get 1 1 = .ok 0 ∧ (newSquare Arith.ofInt 2).get 2 0 = .ub := by decide +kernel

end Matrix
