import Verif.Model.EditDistance
import Verif.Proof.Loop
import Verif.Spec.EditDistance

namespace EditDistance
open Cpp

/-! ### the recursive distance on lists -/

/-- The Wagner–Fischer recursion from the left. -/
def lev : Str → Str → Nat
  | [], b => b.length
  | a, [] => a.length
  | x :: a, y :: b =>
    min (min (lev a (y :: b) + 1) (lev (x :: a) b + 1)) (lev a b + if x = y then 0 else 1)
termination_by a b => a.length + b.length

theorem lev_nil_left (b : Str) : lev [] b = b.length := by unfold lev; rfl
theorem lev_nil_right (a : Str) : lev a [] = a.length := by cases a <;> (unfold lev; rfl)
theorem lev_cons (x y : Byte) (a b : Str) : lev (x :: a) (y :: b) =
    min (min (lev a (y :: b) + 1) (lev (x :: a) b + 1)) (lev a b + if x = y then 0 else 1) := by
  rw [lev]

theorem lev_self (a : Str) : lev a a = 0 := by
  induction a with
  | nil => rw [lev_nil_left]; rfl
  | cons x a ih => rw [lev_cons, ih]; simp

theorem lev_symm (a b : Str) : lev a b = lev b a := by
  induction hn : a.length + b.length using Nat.strongRecOn generalizing a b with
  | _ n ih =>
    cases a with
    | nil => rw [lev_nil_left, lev_nil_right]
    | cons x a =>
      cases b with
      | nil => rw [lev_nil_left, lev_nil_right]
      | cons y b =>
        simp only [List.length_cons] at hn
        rw [lev_cons, lev_cons]
        rw [ih _ _ a (y :: b) rfl, ih _ _ (x :: a) b rfl, ih _ _ a b rfl]
        · by_cases hxy : x = y
          · subst hxy; omega
          · rw [if_neg hxy, if_neg (fun h => hxy h.symm)]; omega
        all_goals (try simp only [List.length_cons]); omega

/-- deleting the head -/
theorem lev_cons_le (c : Byte) (s b : Str) : lev (c :: s) b ≤ lev s b + 1 := by
  cases b with
  | nil => rw [lev_nil_right, lev_nil_right]; simp
  | cons y b => rw [lev_cons]; omega

theorem lev_cons_le_right (c : Byte) (s b : Str) : lev s (c :: b) ≤ lev s b + 1 := by
  rw [lev_symm s, lev_symm s]; exact lev_cons_le c b s

theorem lev_le_cons (c : Byte) (s b : Str) : lev s b ≤ lev (c :: s) b + 1 := by
  induction b with
  | nil => rw [lev_nil_right, lev_nil_right]; simp; omega
  | cons y b ih =>
    have h1 := lev_cons_le_right y s b
    rw [lev_cons]
    split <;> omega

theorem lev_replace (c d : Byte) (s b : Str) : lev (c :: s) b ≤ lev (d :: s) b + 1 := by
  induction b with
  | nil => rw [lev_nil_right, lev_nil_right]; simp
  | cons y b ih =>
    rw [lev_cons, lev_cons]
    split <;> split <;> omega

/-- A one-step estimate survives a common first character. -/
theorem lev_lip_cons (x : Byte) (u v : Str) (h : ∀ b, lev u b ≤ lev v b + 1) (b : Str) :
    lev (x :: u) b ≤ lev (x :: v) b + 1 := by
  induction b with
  | nil =>
    have := h []
    rw [lev_nil_right, lev_nil_right] at *
    simp only [List.length_cons]; omega
  | cons y b ih =>
    have h1 := h (y :: b)
    have h2 := h b
    rw [lev_cons, lev_cons]
    split <;> omega

theorem lev_lip_append (p u v : Str) (h : ∀ b, lev u b ≤ lev v b + 1) (b : Str) :
    lev (p ++ u) b ≤ lev (p ++ v) b + 1 := by
  induction p generalizing b with
  | nil => exact h b
  | cons x p ih => exact lev_lip_cons x _ _ ih b

theorem lev_edit {a a' : Str} (h : Spec.Edit a a') (b : Str) : lev a b ≤ lev a' b + 1 := by
  cases h with
  | insert u c v => exact lev_lip_append u _ _ (lev_le_cons c v) b
  | delete u c v => exact lev_lip_append u _ _ (lev_cons_le c v) b
  | replace u c d v => exact lev_lip_append u _ _ (lev_replace c d v) b

theorem lev_le_of_edits {n : Nat} {a b : Str} (h : Spec.Edits n a b) : lev a b ≤ n := by
  induction h with
  | done a => rw [lev_self]; omega
  | step h1 _ ih => have := lev_edit h1; have := this ‹_›; omega

/-! ### building edit sequences -/

theorem Edit.cons {a b : Str} (h : Spec.Edit a b) (x : Byte) : Spec.Edit (x :: a) (x :: b) := by
  cases h with
  | insert u c v => exact .insert (x :: u) c v
  | delete u c v => exact .delete (x :: u) c v
  | replace u c d v => exact .replace (x :: u) c d v

theorem Edits.cons {n : Nat} {a b : Str} (h : Spec.Edits n a b) (x : Byte) :
    Spec.Edits n (x :: a) (x :: b) := by
  induction h with
  | done a => exact .done _
  | step h1 _ ih => exact .step (Edit.cons h1 x) ih

theorem edits_nil_left (b : Str) : Spec.Edits b.length [] b := by
  induction b with
  | nil => exact .done _
  | cons y b ih => exact .step (.insert [] y []) (Edits.cons ih y)

theorem edits_nil_right (a : Str) : Spec.Edits a.length a [] := by
  induction a with
  | nil => exact .done _
  | cons y b ih => exact .step (.delete [] y b) ih

theorem edits_lev (a b : Str) : Spec.Edits (lev a b) a b := by
  induction hn : a.length + b.length using Nat.strongRecOn generalizing a b with
  | _ n ih =>
    cases a with
    | nil => rw [lev_nil_left]; exact edits_nil_left b
    | cons x a =>
      cases b with
      | nil => rw [lev_nil_right]; exact edits_nil_right _
      | cons y b =>
        simp only [List.length_cons] at hn
        have h1 := ih _ (by simp only [List.length_cons]; omega) a (y :: b) rfl
        have h2 := ih _ (by simp only [List.length_cons]; omega) (x :: a) b rfl
        have h3 := ih _ (by omega) a b rfl
        have e1 : Spec.Edits (lev a (y :: b) + 1) (x :: a) (y :: b) := .step (.delete [] x a) h1
        have e2 : Spec.Edits (lev (x :: a) b + 1) (x :: a) (y :: b) :=
          .step (.insert [] y (x :: a)) (Edits.cons h2 y)
        have e3 : Spec.Edits (lev a b + if x = y then 0 else 1) (x :: a) (y :: b) := by
          split
          · rename_i h; subst h; exact Edits.cons h3 x
          · exact .step (.replace [] x y a) (Edits.cons h3 y)
        rw [lev_cons]
        rcases Nat.le_total (lev a (y :: b) + 1) (lev (x :: a) b + 1) with h | h
        · rw [Nat.min_eq_left h]
          rcases Nat.le_total (lev a (y :: b) + 1) (lev a b + if x = y then 0 else 1) with h' | h'
          · rw [Nat.min_eq_left h']; exact e1
          · rw [Nat.min_eq_right h']; exact e3
        · rw [Nat.min_eq_right h]
          rcases Nat.le_total (lev (x :: a) b + 1) (lev a b + if x = y then 0 else 1) with h' | h'
          · rw [Nat.min_eq_left h']; exact e2
          · rw [Nat.min_eq_right h']; exact e3

theorem Edits.trans {m n : Nat} {a b c : Str} (h1 : Spec.Edits m a b) (h2 : Spec.Edits n b c) :
    Spec.Edits (m + n) a c := by
  induction h1 with
  | done a => simpa using h2
  | step h _ ih =>
    rename_i k a b' c' _
    have := Spec.Edits.step h (ih h2)
    rwa [show k + n + 1 = k + 1 + n by omega] at this

/-! ### reversal -/

theorem Edit.reverse {a b : Str} (h : Spec.Edit a b) : Spec.Edit a.reverse b.reverse := by
  cases h with
  | insert u c v => simpa using Spec.Edit.insert v.reverse c u.reverse
  | delete u c v => simpa using Spec.Edit.delete v.reverse c u.reverse
  | replace u c d v => simpa using Spec.Edit.replace v.reverse c d u.reverse

theorem Edits.reverse {n : Nat} {a b : Str} (h : Spec.Edits n a b) :
    Spec.Edits n a.reverse b.reverse := by
  induction h with
  | done a => exact .done _
  | step h _ ih => exact .step (Edit.reverse h) ih

theorem lev_reverse (a b : Str) : lev a.reverse b.reverse = lev a b := by
  have h1 := lev_le_of_edits (Edits.reverse (edits_lev a b))
  have h2 := lev_le_of_edits (Edits.reverse (edits_lev a.reverse b.reverse))
  simp only [List.reverse_reverse] at h2
  omega

/-! ### the dynamic program -/

/-- Distance of the prefixes of lengths `i` and `j`. -/
def D (a b : Str) (i j : Nat) : Nat := lev (a.take i).reverse (b.take j).reverse

theorem D_zero_left (a b : Str) (j : Nat) (h : j ≤ b.length) : D a b 0 j = j := by
  simp [D, lev_nil_left]; omega

theorem D_zero_right (a b : Str) (i : Nat) (h : i ≤ a.length) : D a b i 0 = i := by
  simp [D, lev_nil_right]; omega

theorem take_succ_reverse (a : Str) (i : Nat) (h : i < a.length) :
    (a.take (i + 1)).reverse = a.getD i 0 :: (a.take i).reverse := by
  rw [List.take_add_one, List.reverse_append]
  simp [h]

theorem D_succ (a b : Str) (i j : Nat) (hi : i < a.length) (hj : j < b.length) :
    D a b (i + 1) (j + 1) = min (min (D a b i (j + 1) + 1) (D a b (i + 1) j + 1))
      (D a b i j + if a.getD i 0 = b.getD j 0 then 0 else 1) := by
  unfold D
  rw [take_succ_reverse a i hi, take_succ_reverse b j hj, lev_cons]

theorem lev_le_max (a b : Str) : lev a b ≤ max a.length b.length := by
  induction a generalizing b with
  | nil => rw [lev_nil_left]; omega
  | cons x a ih =>
    cases b with
    | nil => rw [lev_nil_right]; omega
    | cons y b =>
      have := ih b
      rw [lev_cons]
      simp only [List.length_cons]
      split <;> omega

theorem length_le_lev (a b : Str) : a.length ≤ lev a b + b.length := by
  induction hn : a.length + b.length using Nat.strongRecOn generalizing a b with
  | _ n ih =>
    cases a with
    | nil => simp
    | cons x a =>
      cases b with
      | nil => rw [lev_nil_right]; omega
      | cons y b =>
        simp only [List.length_cons] at hn
        have h1 := ih _ (by simp only [List.length_cons]; omega) a (y :: b) rfl
        have h2 := ih _ (by simp only [List.length_cons]; omega) (x :: a) b rfl
        have h3 := ih _ (by omega) a b rfl
        rw [lev_cons]
        simp only [List.length_cons] at *
        omega

theorem lev_eq_zero {a b : Str} (h : lev a b = 0) : a = b := by
  have := edits_lev a b
  rw [h] at this
  cases this; rfl

theorem D_le (a b : Str) (i j : Nat) : D a b i j ≤ max a.length b.length := by
  have := lev_le_max (a.take i).reverse (b.take j).reverse
  simp only [List.length_reverse, List.length_take] at this
  unfold D; omega

theorem isInt_nat {n : Nat} (h : n ≤ 2147483647) : IsInt (n : Int) :=
  ⟨by unfold INT_MIN; omega, by unfold INT_MAX; omega⟩

theorem bnd {d m n : Nat} (h : d ≤ max m n) (hm : m < 2147483647) (hn : n < 2147483647) :
    d + 1 ≤ 2147483647 := by omega

theorem min3_eq (a b c : Nat) : min3 (a : Int) b c = ((min (min a b) c : Nat) : Int) := by
  unfold min3
  split <;> split <;> omega

/-- The cells with `P i j` hold the right values. -/
def Good (a b : Str) (M : Matrix) (P : Nat → Nat → Prop) : Prop :=
  M.rows = a.length + 1 ∧ M.cols = b.length + 1 ∧
  ∀ i j, i ≤ a.length → j ≤ b.length → P i j → M.cell i j = some (D a b i j : Int)

theorem get_good {a b : Str} {M : Matrix} {P : Nat → Nat → Prop} (h : Good a b M P) {i j : Nat}
    (hi : i ≤ a.length) (hj : j ≤ b.length) (hp : P i j) : M.get i j = .ok (D a b i j) := by
  unfold Matrix.get
  rw [if_pos ⟨by have := h.1; omega, by have := h.2.1; omega⟩, h.2.2 i j hi hj hp]

theorem set_good {a b : Str} {M : Matrix} {P Q : Nat → Nat → Prop} (h : Good a b M P) {i j : Nat}
    (hi : i ≤ a.length) (hj : j ≤ b.length) {v : Int} (hv : v = D a b i j)
    (hq : ∀ i' j', Q i' j' → (i' = i ∧ j' = j) ∨ P i' j') :
    ∃ M', M.set i j v = .ok M' ∧ Good a b M' Q := by
  unfold Matrix.set
  rw [if_pos ⟨by have := h.1; omega, by have := h.2.1; omega⟩]
  refine ⟨_, rfl, h.1, h.2.1, fun i' j' hi' hj' hp => ?_⟩
  simp only
  by_cases e : i' = i ∧ j' = j
  · rw [if_pos e, hv, e.1, e.2]
  · rw [if_neg e]
    rcases hq i' j' hp with h' | h'
    · exact absurd h' e
    · exact h.2.2 i' j' hi' hj' h'

theorem cellStep_ok (a b : Str) (M : Matrix) (i j : Nat)
    (hB : ∀ i j, IsInt ((D a b i j + 1 : Nat) : Int))
    (hi : i < a.length) (hj : j < b.length)
    (h : Good a b M fun i' j' => i' ≤ i ∨ j' = 0 ∨ (i' = i + 1 ∧ j' ≤ j)) :
    ∃ M', cellStep a b (i + 1) M (j + 1) = .ok M' ∧
      Good a b M' fun i' j' => i' ≤ i ∨ j' = 0 ∨ (i' = i + 1 ∧ j' ≤ j + 1) := by
  have e1 : (((i + 1 : Nat) : Int) - 1) = (i : Nat) := by omega
  have e2 : (((j + 1 : Nat) : Int) - 1) = (j : Nat) := by omega
  have e3 : ((D a b i j : Nat) : Int) + (if a.getD i 0 = b.getD j 0 then (0 : Int) else 1) =
      ((D a b i j + if a.getD i 0 = b.getD j 0 then 0 else 1 : Nat) : Int) := by
    split <;> simp
  have e4 : ((D a b i (j + 1) : Nat) : Int) + 1 = ((D a b i (j + 1) + 1 : Nat) : Int) := by omega
  have e5 : ((D a b (i + 1) j : Nat) : Int) + 1 = ((D a b (i + 1) j + 1 : Nat) : Int) := by omega
  have i3 : IsInt ((D a b i j + if a.getD i 0 = b.getD j 0 then 0 else 1 : Nat) : Int) := by
    have := hB i j
    unfold IsInt at *
    have h0 : INT_MIN ≤ 0 := by decide
    split <;> omega
  have g1 := get_good h (i := i) (j := j + 1) (by omega) (by omega) (by omega)
  have g2 := get_good h (i := i + 1) (j := j) (by omega) (by omega) (by omega)
  have g3 := get_good h (i := i) (j := j) (by omega) (by omega) (by omega)
  unfold cellStep
  simp only [e1, e2, strAt_ok hi, strAt_ok hj, Out.ok_bind, Nat.add_sub_cancel, g1, g2, g3, e3, e4,
    e5, int_ok (hB _ _), int_ok i3]
  refine set_good h (by omega) (by omega) ?_ ?_
  · rw [min3_eq, D_succ a b i j hi hj]
  · intro i' j' h'; omega

theorem rowStep_ok (a b : Str) (M : Matrix) (i : Nat)
    (hB : ∀ i j, IsInt ((D a b i j + 1 : Nat) : Int))
    (hi : i < a.length) (h : Good a b M fun i' j' => i' ≤ i ∨ j' = 0) :
    ∃ M', rowStep a b b.length M (i + 1) = .ok M' ∧
      Good a b M' fun i' j' => i' ≤ i + 1 ∨ j' = 0 := by
  unfold rowStep
  obtain ⟨M', e, g⟩ := foldlM_range'_inv (cellStep a b (i + 1))
    (fun j M => Good a b M fun i' j' => i' ≤ i ∨ j' = 0 ∨ (i' = i + 1 ∧ j' ≤ j)) b.length M
    ⟨h.1, h.2.1, fun i' j' h1 h2 h3 => h.2.2 i' j' h1 h2 (by omega)⟩
    (fun k hk s hs => cellStep_ok a b s i k hB hi hk hs)
  exact ⟨M', e, g.1, g.2.1, fun i' j' h1 h2 h3 => g.2.2 i' j' h1 h2 (by omega)⟩

theorem editDistance_eq (a b : Str) (hla : a.length < 2147483647) (hlb : b.length < 2147483647) :
    editDistance a b = .ok (lev a b) := by
  unfold editDistance
  dsimp only
  split
  · rename_i h
    rw [int_ok (by unfold IsInt INT_MIN INT_MAX; omega)]
    rcases h with h | h
    · have := List.length_eq_zero_iff.mp h; subst this; rw [lev_nil_left]; simp
    · have := List.length_eq_zero_iff.mp h; subst this; rw [lev_nil_right]; simp
  · obtain ⟨M1, e1, g1⟩ := foldlM_range_inv (fun (M : Matrix) i => M.set i 0 i)
      (fun k M => Good a b M fun i' j' => i' < k ∧ j' = 0) (a.length + 1)
      ⟨a.length + 1, b.length + 1, fun _ _ => none⟩
      ⟨rfl, rfl, fun i j _ _ h => by omega⟩
      (fun k hk s hs => set_good hs (by omega) (by omega) (by rw [D_zero_right a b k (by omega)])
        (fun i' j' h' => by omega))
    rw [e1]
    simp only [Out.ok_bind]
    obtain ⟨M2, e2, g2⟩ := foldlM_range_inv (fun (M : Matrix) i => M.set 0 i i)
      (fun k M => Good a b M fun i' j' => j' = 0 ∨ (i' = 0 ∧ j' < k)) (b.length + 1) M1
      ⟨g1.1, g1.2.1, fun i j h1 h2 h => g1.2.2 i j h1 h2 (by omega)⟩
      (fun k hk s hs => set_good hs (by omega) (by omega) (by rw [D_zero_left a b k (by omega)])
        (fun i' j' h' => by omega))
    rw [e2]
    simp only [Out.ok_bind]
    obtain ⟨M3, e3, g3⟩ := foldlM_range'_inv (rowStep a b b.length)
      (fun k M => Good a b M fun i' j' => i' ≤ k ∨ j' = 0) a.length M2
      ⟨g2.1, g2.2.1, fun i j h1 h2 h => g2.2.2 i j h1 h2 (by omega)⟩
      (fun k hk s hs => rowStep_ok a b s k (fun i j => isInt_nat (bnd (D_le a b i j) hla hlb)) hk hs)
    rw [e3]
    simp only [Out.ok_bind]
    rw [get_good g3 (by omega) (by omega) (by omega)]
    unfold D
    rw [List.take_length, List.take_length, lev_reverse]

end EditDistance
