import Verif.Model.MatrixWork
import Verif.Proof.Tally
import Mathlib.Tactic.Ring
import Mathlib.Tactic.Linarith

/-! # Work of `Matrix`: the counting model computes the same, and its counts -/

namespace Matrix.Work
open Cpp Tally

variable {α : Type}

@[simp] theorem out_put (A : Mat α) (i j : Nat) (v : α) : (put A i j v).out = A.set i j v := rfl
@[simp] theorem out_new (ar : Arith α) (n m : Nat) : (new ar n m).out = .ok (Matrix.new ar n m) := rfl
@[simp] theorem out_copy (A : Mat α) : (copy A).out = Matrix.copy A := by
  unfold copy
  simp only [out_bind, out_free, out_use, Out.ok_bind]
  cases Matrix.copy A <;> rfl

theorem eqRow_out [DecidableEq α] (A B : Mat α) (i : Nat) (js : List Nat) : (eqRow A B i js).out =
    js.allM (fun j => do
      let x ← A.get i j
      let y ← B.get i j
      .ok (decide (x = y))) := by
  induction js with
  | nil => rfl
  | cons j js ih =>
    rw [eqRow, List.allM]
    simp only [out_bind, out_one, out_ite, out_free, ih, bind_assoc, Out.ok_bind]
    refine congrArg _ (funext fun x => congrArg _ (funext fun y => ?_))
    by_cases h : x = y
    · rw [if_pos h]; simp only [h, decide_true]
    · rw [if_neg h]; simp only [h, decide_false]; rfl

theorem eqRows_out [DecidableEq α] (A B : Mat α) (is : List Nat) : (eqRows A B is).out =
    is.allM (fun i => (List.range A.col).allM fun j => do
      let x ← A.get i j
      let y ← B.get i j
      .ok (decide (x = y))) := by
  induction is with
  | nil => rfl
  | cons i is ih =>
    rw [eqRows, List.allM]
    simp only [out_bind, out_ite, out_free, ih, eqRow_out]
    refine congrArg _ (funext fun b => ?_)
    cases b <;> rfl

theorem eq_out [DecidableEq α] (A B : Mat α) : (eq A B).out = Matrix.eq A B := by
  unfold eq Matrix.eq
  rw [out_ite, out_free, eqRows_out]

theorem timesStep_out (ar : Arith α) (A B : Mat α) (i j : Nat) (R : Mat α) (k : Nat) :
    (timesStep ar A B i j R k).out = Matrix.timesStep ar A B i j R k := by
  unfold timesStep Matrix.timesStep
  simp only [out_bind, out_free, out_one, out_put]

theorem product_out (ar : Arith α) (A B : Mat α) : (product ar A B).out = Matrix.product ar A B := by
  unfold product Matrix.product
  rw [out_bind, out_new, Out.ok_bind]
  exact foldlM_out _ _ (fun s i => foldlM_out _ _ (fun s j => foldlM_out _ _ (timesStep_out ar A B i j) _ _) _ _) _ _

theorem times_out (ar : Arith α) (A B : Mat α) : (times ar A B).out = Matrix.times ar A B := by
  unfold times Matrix.times
  rw [out_ite, out_free, out_bind, product_out]
  simp only [out_copy]

theorem overCells_out (n m : Nat) (f : Mat α → Nat → Nat → Job (Mat α)) (g : Mat α → Nat → Nat → Out (Mat α))
    (h : ∀ A i j, (f A i j).out = g A i j) (A : Mat α) : (overCells n m f A).out = Matrix.overCells n m g A :=
  foldlM_out _ _ (fun _ i => foldlM_out _ _ (fun t j => h t i j) _ _) _ _

theorem plus_out (ar : Arith α) (A B : Mat α) : (plus ar ar.add A B).out = Matrix.plus ar A B := by
  unfold plus Matrix.plus
  rw [out_ite, out_free, out_bind, out_new, Out.ok_bind]
  split
  · rfl
  · exact overCells_out _ _ _ _ (fun R i j => by simp only [out_bind, out_one, out_free]) _

theorem minus_out (ar : Arith α) (A B : Mat α) : (plus ar ar.sub A B).out = Matrix.minus ar A B := by
  unfold plus Matrix.minus
  rw [out_ite, out_free, out_bind, out_new, Out.ok_bind]
  split
  · rfl
  · exact overCells_out _ _ _ _ (fun R i j => by simp only [out_bind, out_one, out_free]) _

theorem plusAssign_out (ar : Arith α) (A B : Mat α) : (plusAssign ar.add A B).out = Matrix.plusAssign ar A B := by
  unfold plusAssign Matrix.plusAssign
  rw [out_ite, out_free]
  split
  · rfl
  · exact overCells_out _ _ _ _ (fun R i j => by simp only [out_bind, out_one, out_free, out_put]) _

theorem minusAssign_out (ar : Arith α) (A B : Mat α) : (plusAssign ar.sub A B).out = Matrix.minusAssign ar A B := by
  unfold plusAssign Matrix.minusAssign
  rw [out_ite, out_free]
  split
  · rfl
  · exact overCells_out _ _ _ _ (fun R i j => by simp only [out_bind, out_one, out_free, out_put]) _

theorem scanCol_out [DecidableEq α] (ar : Arith α) (A : Mat α) (r : Nat) : ∀ n j,
    (scanCol ar A r n j).out = Matrix.scanCol ar A r n j := by
  intro n
  induction n with
  | zero => intro j; rfl
  | succ n ih =>
    intro j
    rw [scanCol, Matrix.scanCol]
    simp only [out_bind, out_one, out_ite, out_free, ih]

theorem seek_out [DecidableEq α] (ar : Arith α) (A : Mat α) (i r : Nat) (nz : Option (Option Nat)) :
    (seek ar A i r nz).out = Matrix.seek ar A i r nz := by
  induction hk : A.col - r generalizing r nz with
  | zero =>
    rw [seek, Matrix.seek, if_neg (by omega), if_neg (by omega)]; rfl
  | succ k ih =>
    rw [seek, Matrix.seek, if_pos (by omega), if_pos (by omega), out_bind, scanCol_out]
    refine congrArg _ (funext fun x => ?_)
    cases x with
    | none => exact ih (r + 1) (some none) (by omega)
    | some j => rfl

theorem normalise_out (ar : Arith α) (A : Mat α) (i r : Nat) : (normalise ar A i r).out = Matrix.normalise ar A i r := by
  unfold normalise Matrix.normalise
  rw [out_bind]
  exact congrArg₂ _ (foldlM_out _ _ (fun s j => by simp only [out_bind, out_one, out_free, out_put]) _ _) rfl

theorem eliminate_out (ar : Arith α) (i r : Nat) (A : Mat α) (j : Nat) :
    (eliminate ar i r A j).out = Matrix.eliminate ar i r A j := by
  unfold eliminate Matrix.eliminate
  rw [out_bind]
  exact congrArg₂ _ (foldlM_out _ _ (fun s j => by simp only [out_bind, out_one, out_free, out_put]) _ _) rfl

theorem reduceLoop_out [DecidableEq α] (ar : Arith α) : ∀ n A i r,
    (reduceLoop ar n A i r).out = Matrix.reduceLoop (α := α) ar n A i r := by
  intro n
  induction n with
  | zero => intro A i r; rfl
  | succ n ih =>
    intro A i r
    rw [reduceLoop, Matrix.reduceLoop, out_bind, seek_out]
    refine congrArg _ (funext fun x => ?_)
    obtain ⟨r, nz⟩ := x
    match nz with
    | none => rfl
    | some none => rfl
    | some (some j) =>
      simp only [out_bind, normalise_out]
      refine congrArg _ (funext fun A => ?_)
      rw [foldlM_out _ _ (fun s j => eliminate_out ar i r s j)]
      exact congrArg _ (funext fun A => ih _ _ _)

/-! ### exact counts -/

theorem flatten_nils (k : Nat) : (List.replicate k ([] : List Int)).flatten = [] := by
  induction k with
  | zero => rfl
  | succ k ih => rw [List.replicate_succ, List.flatten_cons, ih]; rfl

theorem costs_loop {n k : Nat} {σ : Type} (f : σ → Nat → Job σ) (s : σ) (h : ∀ s i, Costs n [] (f s i)) :
    Costs (k * n) [] ((List.range k).foldlM f s) :=
  (costs_foldlM f _ s fun s i _ => h s i).cast (by rw [List.length_range]) (flatten_nils _)

theorem new_costs (ar : Arith α) (n m : Nat) : Costs (n * m) [] (new ar n m) :=
  ((costs_use _).seq fun _ _ => costs_free _).cast rfl rfl

theorem copy_costs (A : Mat α) : Costs (2 * (A.row * A.col)) [] (copy A) :=
  ((costs_free _).seq fun _ _ => (costs_use _).seq fun _ _ => costs_free _).cast (by omega) rfl

theorem set_dims {A R : Mat α} {i j : Nat} {v : α} (h : A.set i j v = .ok R) : R.row = A.row ∧ R.col = A.col := by
  unfold Mat.set at h
  split at h
  · cases h; exact ⟨rfl, rfl⟩
  · cases h

theorem foldlM_dims {ι : Type} (f : Mat α → ι → Out (Mat α)) (h : ∀ A i R, f A i = .ok R → R.row = A.row ∧ R.col = A.col) :
    ∀ (l : List ι) (A R : Mat α), l.foldlM f A = .ok R → R.row = A.row ∧ R.col = A.col := by
  intro l
  induction l with
  | nil => intro A R e; cases e; exact ⟨rfl, rfl⟩
  | cons i l ih =>
    intro A R e
    rw [List.foldlM_cons] at e
    obtain ⟨S, e1, e2⟩ := Out.bind_eq_ok.1 e
    obtain ⟨h1, h2⟩ := h A i S e1
    obtain ⟨h3, h4⟩ := ih S R e2
    exact ⟨h3.trans h1, h4.trans h2⟩

theorem product_dims {ar : Arith α} {A B R : Mat α} (h : Matrix.product ar A B = .ok R) : R.row = A.row ∧ R.col = B.col := by
  refine foldlM_dims _ (fun S i T e => foldlM_dims _ (fun S j T e => foldlM_dims _ (fun S k T e => ?_) _ _ _ e) _ _ _ e) _ _ _ h
  unfold Matrix.timesStep at e
  obtain ⟨_, _, e⟩ := Out.bind_eq_ok.1 e
  obtain ⟨_, _, e⟩ := Out.bind_eq_ok.1 e
  obtain ⟨_, _, e⟩ := Out.bind_eq_ok.1 e
  obtain ⟨_, _, e⟩ := Out.bind_eq_ok.1 e
  obtain ⟨_, _, e⟩ := Out.bind_eq_ok.1 e
  exact set_dims e

theorem product_costs (ar : Arith α) (A B : Mat α) :
    Costs (A.row * B.col + A.row * (B.col * (A.col * 3))) [] (product ar A B) :=
  ((new_costs ar _ _).seq fun _ _ => costs_loop _ _ fun _ _ => costs_loop _ _ fun _ _ => costs_loop _ _ fun _ _ =>
    ((costs_one _).seq fun _ _ => (costs_one _).seq fun _ _ => (costs_free _).seq fun _ _ => (costs_one _).seq fun _ _ =>
      (costs_free _).seq fun _ _ => costs_free _).cast rfl rfl).cast rfl rfl

theorem times_costs (ar : Arith α) (A B : Mat α) :
    Costs (3 * (A.row * A.col * B.col) + 3 * (A.row * B.col)) [] (times ar A B) := by
  unfold times
  split
  · intro a h; cases h
  · intro a h
    have h' := h
    rw [out_bind] at h'
    obtain ⟨R, e, _⟩ := Out.bind_eq_ok.1 h'
    rw [product_out] at e
    obtain ⟨h1, h2⟩ := product_dims e
    refine ((product_costs ar A B).seq (k := 2 * (A.row * B.col)) (u := []) fun S hS => ?_).cast ?_ rfl a h
    · rw [product_out] at hS
      obtain ⟨h1, h2⟩ := product_dims hS
      exact (copy_costs S).cast (by rw [h1, h2]) rfl
    · ring

theorem plus_costs (ar : Arith α) (op : α → α → Out α) (A B : Mat α) : Costs (4 * (A.row * A.col)) [] (plus ar op A B) := by
  unfold plus
  split
  · intro a h; cases h
  · refine ((new_costs ar _ _).seq fun _ _ => costs_loop _ _ fun _ _ => costs_loop (n := 3) _ _ fun _ _ =>
      ((costs_one _).seq fun _ _ => (costs_one _).seq fun _ _ => (costs_free _).seq fun _ _ => costs_one _).cast rfl rfl).cast ?_ rfl
    ring

theorem plusAssign_costs (op : α → α → Out α) (A B : Mat α) : Costs (2 * (A.row * A.col)) [] (plusAssign op A B) := by
  unfold plusAssign
  split
  · intro a h; cases h
  · refine (costs_loop _ _ fun _ _ => costs_loop (n := 2) _ _ fun _ _ =>
      ((costs_one _).seq fun _ _ => (costs_one _).seq fun _ _ => (costs_free _).seq fun _ _ => costs_free _).cast rfl rfl).cast ?_ rfl
    ring

/-! ### bounds -/

theorem eqRow_most [DecidableEq α] (A B : Mat α) (i : Nat) (js : List Nat) : AtMost (js.length * 2) (eqRow A B i js) := by
  induction js with
  | nil => exact Nat.zero_le _
  | cons j js ih =>
    rw [eqRow]
    refine ((most_one _).seq (k := 1 + js.length * 2) fun x _ => (most_one _).seq fun y _ => ?_).mono
      (by rw [List.length_cons]; omega)
    split
    · exact ih
    · exact Nat.zero_le _

theorem eqRows_most [DecidableEq α] (A B : Mat α) (is : List Nat) : AtMost (is.length * (A.col * 2)) (eqRows A B is) := by
  induction is with
  | nil => exact Nat.zero_le _
  | cons i is ih =>
    rw [eqRows]
    refine ((eqRow_most A B i _).seq (k := is.length * (A.col * 2)) fun x _ => ?_).mono
      (by rw [List.length_cons, List.length_range, Nat.add_mul]; omega)
    split
    · exact ih
    · exact Nat.zero_le _

theorem uses_bind {α β : Type} {x : Job α} {f : α → Job β} {a : α} (h : x.out = .ok a) : (x >>= f).uses = x.uses + (f a).uses := by
  show (Job.bind x f).uses = _
  unfold Job.bind
  rw [h]

theorem eqRow_true [DecidableEq α] (A B : Mat α) (i : Nat) (js : List Nat) (h : (eqRow A B i js).out = .ok true) :
    (eqRow A B i js).uses = js.length * 2 := by
  induction js with
  | nil => rfl
  | cons j js ih =>
    rw [eqRow] at h ⊢
    rw [out_bind] at h
    obtain ⟨x, hx, h⟩ := Out.bind_eq_ok.1 h
    rw [out_bind] at h
    obtain ⟨y, hy, h⟩ := Out.bind_eq_ok.1 h
    rw [uses_bind hx, uses_bind hy]
    by_cases e : x = y
    · rw [if_pos e] at h ⊢
      rw [ih h, List.length_cons]
      show 1 + (1 + _) = _
      omega
    · rw [if_neg e] at h
      cases h

theorem eqRows_true [DecidableEq α] (A B : Mat α) (is : List Nat) (h : (eqRows A B is).out = .ok true) :
    (eqRows A B is).uses = is.length * (A.col * 2) := by
  induction is with
  | nil => exact (Nat.zero_mul _).symm
  | cons i is ih =>
    rw [eqRows] at h ⊢
    rw [out_bind] at h
    obtain ⟨b, hb, h⟩ := Out.bind_eq_ok.1 h
    rw [uses_bind hb]
    cases b with
    | false => cases h
    | true =>
      rw [if_pos rfl] at h ⊢
      rw [ih h, eqRow_true A B i _ hb, List.length_cons, List.length_range, Nat.add_mul]
      omega

theorem scanCol_most [DecidableEq α] (ar : Arith α) (A : Mat α) (r : Nat) : ∀ n j, AtMost n (scanCol ar A r n j) := by
  intro n
  induction n with
  | zero => intro j; exact Nat.zero_le _
  | succ n ih =>
    intro j
    rw [scanCol]
    refine ((most_one _).seq (k := n) fun x _ => ?_).mono (by omega)
    split
    · exact Nat.zero_le _
    · exact ih (j + 1)

/-- The search from column `r` on goes through the columns up to the one it finds. -/
theorem seek_most [DecidableEq α] (ar : Arith α) (A : Mat α) (i r : Nat) (nz : Option (Option Nat)) (hr : r ≤ A.col) :
    AtMost (A.row * (A.col - r)) (seek ar A i r nz) ∧
    ∀ r' z, (seek ar A i r nz).out = .ok (r', z) → r ≤ r' ∧ r' ≤ A.col ∧
      (∀ j, z = some (some j) → nz ≠ some (some j) → r' < A.col ∧ (seek ar A i r nz).uses ≤ A.row * (r' - r + 1)) := by
  induction hk : A.col - r generalizing r nz with
  | zero =>
    rw [seek, if_neg (by omega)]
    refine ⟨Nat.zero_le _, fun r' z h => ?_⟩
    cases h
    exact ⟨le_refl _, hr, fun j h1 h2 => absurd h1 h2⟩
  | succ k ih =>
    obtain ⟨i1, i2⟩ := ih (r + 1) (some none) (by omega) (by omega)
    have hs : AtMost A.row (scanCol ar A r (A.row - i) i) := (scanCol_most ar A r _ i).mono (by omega)
    constructor
    · rw [seek, if_pos (by omega)]
      refine (hs.seq (k := A.row * k) fun x _ => ?_).mono (by rw [Nat.mul_add]; omega)
      cases x with
      | none => exact i1
      | some j => exact Nat.zero_le _
    · intro r' z h
      rw [seek, if_pos (by omega)] at h ⊢
      rw [out_bind] at h
      obtain ⟨x, e, h⟩ := Out.bind_eq_ok.1 h
      have hu : ∀ f : Option Nat → Job (Nat × Option (Option Nat)),
          (scanCol ar A r (A.row - i) i >>= f).uses = (scanCol ar A r (A.row - i) i).uses + (f x).uses := by
        intro f
        show (Job.bind _ _).uses = _
        unfold Job.bind
        rw [e]
      rw [hu]
      unfold AtMost at hs
      cases x with
      | none =>
        obtain ⟨j1, j2, j3⟩ := i2 r' z h
        refine ⟨by omega, j2, fun j h1 h2 => ?_⟩
        obtain ⟨j4, j5⟩ := j3 j h1 (by simp)
        refine ⟨j4, ?_⟩
        have : A.row * (r' - r + 1) = A.row + A.row * (r' - (r + 1) + 1) := by
          rw [show r' - r + 1 = (r' - (r + 1) + 1) + 1 by omega, Nat.mul_add]; omega
        rw [this]
        exact Nat.add_le_add hs j5
      | some j =>
        cases h
        refine ⟨le_refl _, hr, fun j h1 h2 => ⟨by omega, ?_⟩⟩
        rw [Nat.sub_self, Nat.zero_add, Nat.mul_one]
        exact hs

theorem downTo_length (c r : Nat) : (downTo c r).length = c - 1 - r := by simp [downTo]

theorem normalise_most (ar : Arith α) (A : Mat α) (i r : Nat) (hr : r < A.col) : AtMost (2 * A.col) (normalise ar A i r) := by
  unfold normalise
  refine ((most_foldlM (n := 2) (fun _ => True) _ _ A trivial fun s _ j _ =>
    ⟨((most_one _).seq fun _ _ => (most_one _).seq fun _ _ => (most_free _).seq fun _ _ => most_free _).mono (le_refl _),
      fun _ _ => trivial⟩).seq fun _ _ => most_one _).mono ?_
  rw [downTo_length]; omega

theorem eliminate_most (ar : Arith α) (i r : Nat) (A : Mat α) (j : Nat) (hr : r < A.col) :
    AtMost (3 * A.col) (eliminate ar i r A j) := by
  unfold eliminate
  refine ((most_foldlM (n := 3) (fun _ => True) _ _ A trivial fun s _ j _ =>
    ⟨((most_one _).seq fun _ _ => (most_one _).seq fun _ _ => (most_free _).seq fun _ _ => (most_one _).seq fun _ _ =>
      (most_free _).seq fun _ _ => most_free _).mono (le_refl _), fun _ _ => trivial⟩).seq fun _ _ => most_one _).mono ?_
  rw [downTo_length]; omega

theorem normalise_dims {ar : Arith α} {A R : Mat α} {i r : Nat} (h : Matrix.normalise ar A i r = .ok R) :
    R.row = A.row ∧ R.col = A.col := by
  unfold Matrix.normalise at h
  obtain ⟨S, e1, e2⟩ := Out.bind_eq_ok.1 h
  have h1 := foldlM_dims _ (fun S j T e => by
    obtain ⟨_, _, e⟩ := Out.bind_eq_ok.1 e
    obtain ⟨_, _, e⟩ := Out.bind_eq_ok.1 e
    obtain ⟨_, _, e⟩ := Out.bind_eq_ok.1 e
    exact set_dims e) _ _ _ e1
  have h2 := set_dims e2
  exact ⟨h2.1.trans h1.1, h2.2.trans h1.2⟩

theorem eliminate_dims {ar : Arith α} {A R : Mat α} {i r j : Nat} (h : Matrix.eliminate ar i r A j = .ok R) :
    R.row = A.row ∧ R.col = A.col := by
  unfold Matrix.eliminate at h
  obtain ⟨S, e1, e2⟩ := Out.bind_eq_ok.1 h
  have h1 := foldlM_dims _ (fun S j T e => by
    obtain ⟨_, _, e⟩ := Out.bind_eq_ok.1 e
    obtain ⟨_, _, e⟩ := Out.bind_eq_ok.1 e
    obtain ⟨_, _, e⟩ := Out.bind_eq_ok.1 e
    obtain ⟨_, _, e⟩ := Out.bind_eq_ok.1 e
    obtain ⟨_, _, e⟩ := Out.bind_eq_ok.1 e
    exact set_dims e) _ _ _ e1
  have h2 := set_dims e2
  exact ⟨h2.1.trans h1.1, h2.2.trans h1.2⟩

theorem reduceLoop_most [DecidableEq α] (ar : Arith α) (R C : Nat) : ∀ (n : Nat) (A : Mat α) (i r : Nat), A.row = R → A.col = C →
    n + i = R → r ≤ C → 2 * (reduceLoop ar n A i r).uses ≤ 2 * (R * (C - r + n)) + 4 * (n * C) + 3 * C * (n * (n - 1)) := by
  intro n
  induction n with
  | zero => intro A i r _ _ _ _; exact Nat.zero_le _
  | succ n ih =>
    intro A i r hR hC hn hr
    obtain ⟨s1, s2⟩ := seek_most ar A i r none (by omega)
    have big : R * (C - r) ≤ R * (C - r + (n + 1)) := Nat.mul_le_mul_left _ (by omega)
    unfold AtMost at s1
    rw [hR, hC] at s1
    rw [reduceLoop]
    show 2 * (Job.bind _ _).uses ≤ _
    unfold Job.bind
    cases e : (seek ar A i r none).out with
    | exit => show 2 * (seek ar A i r none).uses ≤ _; omega
    | ub => show 2 * (seek ar A i r none).uses ≤ _; omega
    | diverge => show 2 * (seek ar A i r none).uses ≤ _; omega
    | ok x =>
      obtain ⟨r', nz⟩ := x
      match nz with
      | none => show 2 * ((seek ar A i r none).uses + 0) ≤ _; omega
      | some none => show 2 * ((seek ar A i r none).uses + 0) ≤ _; omega
      | some (some j) =>
        obtain ⟨h1, h2, h3⟩ := s2 _ _ e
        obtain ⟨h4, h5⟩ := h3 j rfl (by simp)
        rw [hC] at h4
        rw [hR] at h5
        have hsw : (swapRows A j i).row = R ∧ (swapRows A j i).col = C := ⟨hR, hC⟩
        have key : 2 * (normalise ar (swapRows A j i) i r' >>= fun A =>
            (List.range' (i + 1) (A.row - (i + 1))).foldlM (eliminate ar i r') A >>= fun A =>
              reduceLoop ar n A (i + 1) r').uses ≤
            4 * C + (2 * (n * (3 * C)) + (2 * (R * (C - r' + n)) + 4 * (n * C) + 3 * C * (n * (n - 1)))) := by
          have hm : AtMost (2 * C + (n * (3 * C) + (2 * (R * (C - r' + n)) + 4 * (n * C) + 3 * C * (n * (n - 1))) / 2))
            (normalise ar (swapRows A j i) i r' >>= fun A =>
            (List.range' (i + 1) (A.row - (i + 1))).foldlM (eliminate ar i r') A >>= fun A =>
              reduceLoop ar n A (i + 1) r') := by
            refine ((normalise_most ar _ i r' (by rw [hsw.2]; exact h4)).mono (by rw [hsw.2])).seq fun B hB => ?_
            rw [normalise_out] at hB
            have dB := normalise_dims hB
            have hl : (List.range' (i + 1) (B.row - (i + 1))).length = n := by
              rw [List.length_range', dB.1, hsw.1]; omega
            refine AtMost.seq ?_ fun D hD => ?_
            · have := most_foldlM (n := 3 * C) (fun M : Mat α => M.col = C) (eliminate ar i r')
                (List.range' (i + 1) (B.row - (i + 1))) B (dB.2.trans hsw.2) fun s hs q _ =>
                ⟨(eliminate_most ar i r' s q (by rw [hs]; exact h4)).mono (by rw [hs]), fun a ha => by
                  rw [eliminate_out] at ha
                  exact (eliminate_dims ha).2.trans hs⟩
              rw [hl] at this
              exact this
            · rw [foldlM_out _ _ (fun s j => eliminate_out ar i r' s j)] at hD
              have dD := foldlM_dims _ (fun S q T e => eliminate_dims e) _ _ _ hD
              have := ih D (i + 1) r' (dD.1.trans (dB.1.trans hsw.1)) (dD.2.trans (dB.2.trans hsw.2)) (by omega) (by omega)
              exact (Nat.le_div_iff_mul_le (by omega)).2 (by omega)
          unfold AtMost at hm
          omega
        have e1 : R * (C - r + (n + 1)) = R * (r' - r + 1) + R * (C - r' + n) := by
          rw [← Nat.mul_add]; congr 1; omega
        have e2 : 3 * C * ((n + 1) * (n + 1 - 1)) = 2 * (n * (3 * C)) + 3 * C * (n * (n - 1)) := by
          cases n with
          | zero => simp
          | succ n => simp only [Nat.add_sub_cancel]; ring
        have e3 : 4 * ((n + 1) * C) = 4 * C + 4 * (n * C) := by ring
        rw [e1, e2, e3]
        show 2 * ((seek ar A i r none).uses + _) ≤ _
        rw [Nat.mul_add]
        refine (Nat.add_le_add (Nat.mul_le_mul_left 2 h5) key).trans ?_
        omega

end Matrix.Work
