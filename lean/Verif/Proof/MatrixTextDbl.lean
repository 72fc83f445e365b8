import Verif.Model.MatrixTextDbl
import Verif.Proof.MatrixText
import Verif.Proof.JsonDouble

/-! # The text of a matrix of doubles -/

namespace Matrix
open Cpp Json

/-- the text of a row -/
def rowTextD (A : Mat F64) (i : Nat) : Str :=
  (A.elem i 0).toText ++ ((List.range' 1 (A.col - 1)).map fun j => bytes [',', ' '] ++ (A.elem i j).toText).flatten

theorem toTextD_eq {A : Mat F64} (ha : A.alive = true) (hc : 1 ≤ A.col) :
    toTextD A = .ok ((List.range A.row).map fun i => rowTextD A i ++ [10]).flatten := by
  unfold toTextD
  rw [foldlM_append (g := fun i => rowTextD A i ++ [10])]
  · simp
  · intro i hi s
    have hi' : i < A.row := by simpa using hi
    unfold toTextStepD
    have h0 : A.get i 0 = .ok (A.elem i 0) := by rw [Mat.get, if_pos ⟨ha, hi', by omega⟩]
    rw [h0, Out.ok_bind]
    dsimp only
    rw [foldlM_append (g := fun j => bytes [',', ' '] ++ (A.elem i j).toText)]
    · rw [Out.ok_bind]; simp [rowTextD]
    · intro j hj s
      have hj' : j < A.col := by simp at hj; omega
      rw [toTextRowD, Mat.get, if_pos ⟨ha, hi', hj'⟩]
      rfl

theorem dec6_chars (n : Nat) : ∀ c ∈ dec6 n, c ≠ byte ',' ∧ c ≠ 10 := by
  intro c hc
  obtain ⟨i, -, rfl⟩ := List.mem_map.1 hc
  have h : ∀ d < 10, (48 + UInt8.ofNat d : UInt8) ≠ byte ',' ∧ (48 + UInt8.ofNat d : UInt8) ≠ 10 := by decide +kernel
  exact h _ (Nat.mod_lt _ (by norm_num))

theorem toText_chars (d : F64) : d.toText ≠ [] ∧ ∀ c ∈ d.toText, c ≠ byte ',' ∧ c ≠ 10 := by
  obtain ⟨neg, v⟩ := d
  have key : ∀ n : Nat, ∀ c ∈ decNat n, c ≠ byte ',' ∧ c ≠ 10 := by
    intro n c hc
    have := (decNat_digits n).2 c hc
    constructor <;> (rintro rfl; revert this; decide)
  unfold F64.toText
  refine ⟨?_, fun c hc => ?_⟩
  · cases v <;> simp [bytes]
  · rcases List.mem_append.1 hc with hc | hc
    · cases neg
      · simp at hc
      · simp at hc; subst hc; decide
    · cases v with
      | nan => simp [bytes] at hc; rcases hc with rfl | rfl | rfl <;> decide
      | inf s => simp [bytes] at hc; rcases hc with rfl | rfl | rfl <;> decide
      | fin q =>
        simp only [List.mem_append, List.mem_singleton] at hc
        rcases hc with (hc | rfl) | hc
        · exact key _ c hc
        · decide
        · exact dec6_chars _ c hc

theorem fieldsD_inj : ∀ {xs ys : List F64} {x y : F64},
    x.toText ++ (xs.map fun i => bytes [',', ' '] ++ i.toText).flatten =
      y.toText ++ (ys.map fun i => bytes [',', ' '] ++ i.toText).flatten →
    x.toText = y.toText ∧ xs.map F64.toText = ys.map F64.toText
  | [], [], x, y, h => by simp at h; exact ⟨h, rfl⟩
  | [], z :: ys, x, y, h => by
    have : byte ',' ∈ x.toText := by
      rw [List.map_nil, List.flatten_nil, List.append_nil] at h
      rw [h]; simp [bytes]
    exact absurd rfl ((toText_chars x).2 _ this).1
  | z :: xs, [], x, y, h => by
    have : byte ',' ∈ y.toText := by
      rw [List.map_nil, List.flatten_nil, List.append_nil] at h
      rw [← h]; simp [bytes]
    exact absurd rfl ((toText_chars y).2 _ this).1
  | z :: xs, w :: ys, x, y, h => by
    simp only [List.map_cons, List.flatten_cons, bytes, List.map_nil, List.cons_append, List.nil_append] at h
    obtain ⟨e1, e2⟩ := cut (fun hm => ((toText_chars x).2 _ hm).1 rfl) (fun hm => ((toText_chars y).2 _ hm).1 rfl) h
    have e2 := (List.cons.inj e2).2
    obtain ⟨e3, e4⟩ := fieldsD_inj (x := z) (y := w) (by simpa [bytes] using e2)
    exact ⟨e1, by rw [List.map_cons, List.map_cons, e3, e4]⟩

theorem rowTextD_line (A : Mat F64) (i : Nat) : (10 : Byte) ∉ rowTextD A i := by
  intro h
  simp only [rowTextD, List.mem_append, List.mem_flatten, List.mem_map] at h
  rcases h with h | ⟨l, ⟨j, -, rfl⟩, h⟩
  · exact ((toText_chars _).2 _ h).2 rfl
  · rcases List.mem_append.1 h with h | h
    · revert h; decide
    · exact ((toText_chars _).2 _ h).2 rfl

theorem rowTextD_inj {A B : Mat F64} {i : Nat} (hA : 1 ≤ A.col) (hB : 1 ≤ B.col) (h : rowTextD A i = rowTextD B i) :
    A.col = B.col ∧ ∀ j < A.col, (A.elem i j).toText = (B.elem i j).toText := by
  have f : ∀ (M : Mat F64), ((List.range' 1 (M.col - 1)).map fun j => bytes [',', ' '] ++ (M.elem i j).toText) =
      ((List.range' 1 (M.col - 1)).map fun j => M.elem i j).map fun x => bytes [',', ' '] ++ x.toText := by
    intro M; simp
  unfold rowTextD at h
  rw [f, f] at h
  obtain ⟨e1, e2⟩ := fieldsD_inj h
  have hl := congrArg List.length e2
  simp at hl
  have hc : A.col = B.col := by omega
  refine ⟨hc, fun j hj => ?_⟩
  cases j with
  | zero => exact e1
  | succ j =>
    have := congrArg (fun l => l[j]?) e2
    simp only [List.getElem?_map] at this
    rw [List.getElem?_range' (by omega), List.getElem?_range' (by omega)] at this
    simp at this
    rwa [Nat.add_comm 1 j] at this

theorem toText_same {neg neg' : Bool} {q q' : ℚ} (h : (F64.mk neg (.fin q)).toText = (F64.mk neg' (.fin q')).toText) :
    neg = neg' ∧ millionths |q| = millionths |q'| := by
  have hm : ∀ (n : Nat) (u : Str), decNat n ++ u ≠ [] ∧ ∀ v, decNat n ++ u ≠ byte '-' :: v := by
    intro n u
    obtain ⟨c, t, e⟩ := List.exists_cons_of_ne_nil (decNat_digits n).1
    rw [e]
    refine ⟨by simp, fun v e' => ?_⟩
    have := (decNat_digits n).2 c (by rw [e]; simp)
    rw [(List.cons.inj e').1] at this
    revert this; decide
  have key : ∀ n m : Nat, decNat (n / 1000000) ++ [byte '.'] ++ dec6 (n % 1000000) = decNat (m / 1000000) ++ [byte '.'] ++ dec6 (m % 1000000) →
      n = m := by
    intro n m e
    have hd : ∀ k : Nat, byte '.' ∉ decNat k := by
      intro k hk
      have := (decNat_digits k).2 _ hk
      revert this; decide
    simp only [List.append_assoc, List.singleton_append] at e
    obtain ⟨e1, e2⟩ := cut (hd _) (hd _) e
    have e3 := congrArg Spec.nat e1
    rw [decNat_nat, decNat_nat] at e3
    have e4 := congrArg Spec.nat e2
    rw [dec6_nat (Nat.mod_lt n (by norm_num)), dec6_nat (Nat.mod_lt m (by norm_num))] at e4
    omega
  cases neg <;> cases neg' <;> simp only [F64.toText, Bool.false_eq_true, if_false, if_true, List.nil_append, List.singleton_append] at h
  · exact ⟨rfl, key _ _ h⟩
  · rw [List.append_assoc] at h
    exact absurd h ((hm _ _).2 _)
  · rw [List.append_assoc _ _ (dec6 ((roundEven (|q'| * 1000000)).toNat % 1000000))] at h
    exact absurd h.symm ((hm _ _).2 _)
  · exact ⟨rfl, key _ _ (List.cons.inj h).2⟩

theorem toText_finite {d e : F64} (h : d.toText = e.toText) (hd : ∃ q, d.val = .fin q) : ∃ q, e.val = .fin q := by
  obtain ⟨neg, v⟩ := d
  obtain ⟨q, rfl⟩ := hd
  obtain ⟨neg', v'⟩ := e
  have hdot : byte '.' ∈ (F64.mk neg (.fin q)).toText := by unfold F64.toText; simp
  rw [h] at hdot
  cases v' with
  | fin q' => exact ⟨q', rfl⟩
  | nan => exact absurd hdot (by cases neg' <;> decide)
  | inf s => exact absurd hdot (by cases neg' <;> cases s <;> decide)

theorem close_of_same {neg : Bool} {q q' : ℚ} (hs : Spec.SignBit neg q) (hs' : Spec.SignBit neg q')
    (h : millionths |q| = millionths |q'|) : |q - q'| ≤ 1 / 1000000 := by
  have h1 := millionths_close (abs_nonneg q)
  have h2 := millionths_close (abs_nonneg q')
  rw [← h] at h2
  have e : |q - q'| = |(|q|) - (|q'|)| := by
    cases neg with
    | true =>
      have a : q ≤ 0 := hs
      have b : q' ≤ 0 := hs'
      rw [abs_of_nonpos a, abs_of_nonpos b, ← abs_neg]; congr 1; ring
    | false =>
      have a : 0 ≤ q := hs
      have b : 0 ≤ q' := hs'
      rw [abs_of_nonneg a, abs_of_nonneg b]
  rw [e]
  rw [abs_le] at *
  constructor <;> linarith [h1.1, h1.2, h2.1, h2.2]

theorem eq_of_same {neg : Bool} {q q' : ℚ} (hs : Spec.SignBit neg q) (hs' : Spec.SignBit neg q')
    (hq : Rand.Spec.IsDouble q) (hq' : Rand.Spec.IsDouble q') (hb : 2 ^ 33 ≤ |q|) (hb' : 2 ^ 33 ≤ |q'|)
    (h : millionths |q| = millionths |q'|) : q = q' := by
  have abs' : ∀ {x : ℚ}, Rand.Spec.IsDouble x → Rand.Spec.IsDouble |x| := fun {x} hx => by
    rcases abs_choice x with e | e <;> rw [e]
    · exact hx
    · exact isDouble_neg hx
  have e : |q| = |q'| := by rw [← big_survives (abs' hq) hb, h, big_survives (abs' hq') hb']
  cases neg with
  | true =>
    have a : q ≤ 0 := hs
    have b : q' ≤ 0 := hs'
    rw [abs_of_nonpos a, abs_of_nonpos b] at e; linarith
  | false =>
    have a : 0 ≤ q := hs
    have b : 0 ≤ q' := hs'
    rwa [abs_of_nonneg a, abs_of_nonneg b] at e

end Matrix
