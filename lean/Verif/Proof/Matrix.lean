import Verif.Spec.Matrix
import Verif.Proof.Loop
import Mathlib.Tactic.Ring
import Mathlib.Tactic.FieldSimp
import Mathlib.Tactic.Linarith

/-! # Lemmas about the matrix loops -/

namespace Matrix
open Cpp Spec

variable {α : Type}

theorem Spec.Holds.congr {A : Mat α} {n m : Nat} {f g : Nat → Nat → α} (h : Holds A n m f)
    (e : ∀ i, i < n → ∀ j, j < m → f i j = g i j) : Holds A n m g :=
  ⟨h.alive, h.row, h.col, fun i hi j hj => by rw [h.entry i hi j hj, e i hi j hj]⟩

theorem hget {A : Mat α} {n m : Nat} {f : Nat → Nat → α} (h : Holds A n m f) {i j : Nat} (hi : i < n)
    (hj : j < m) : A.get i j = .ok (f i j) := by
  unfold Mat.get
  rw [if_pos ⟨h.alive, by rw [h.row]; exact hi, by rw [h.col]; exact hj⟩, h.entry i hi j hj]

theorem hset {A : Mat α} {n m : Nat} {f : Nat → Nat → α} (h : Holds A n m f) {i j : Nat} (hi : i < n)
    (hj : j < m) (v : α) :
    ∃ A', A.set i j v = .ok A' ∧ Holds A' n m (fun a b => if a = i ∧ b = j then v else f a b) := by
  unfold Mat.set
  rw [if_pos ⟨h.alive, by rw [h.row]; exact hi, by rw [h.col]; exact hj⟩]
  refine ⟨_, rfl, h.alive, h.row, h.col, ?_⟩
  intro a ha b hb
  dsimp only
  split
  · rfl
  · exact h.entry a ha b hb

theorem new_holds [Ring α] (ar : Arith α) (hz : ar.zero = 0) (n m : Nat) :
    Holds (new ar n m) n m (fun _ _ => 0) := ⟨rfl, rfl, rfl, fun _ _ _ _ => hz⟩

/-- loop over all cells: each step computes `o` and stores it -/
theorem overCells_both {n m : Nat} (step : Mat α → Nat → Nat → Out (Mat α)) (A : Mat α)
    (f v : Nat → Nat → α) (T : Prop) (hA : Holds A n m f)
    (hs : ∀ i, i < n → ∀ j, j < m → ∀ A, Holds A n m (fun a b => if a < i ∨ (a = i ∧ b < j) then v a b else f a b) →
      ∃ o : Out α, step A i j = (do A.set i j (← o)) ∧ (∀ z, o = .ok z → z = v i j) ∧
        (T → ∃ z, o = .ok z)) :
    (∀ R, overCells n m step A = .ok R → Holds R n m v) ∧ (T → ∃ R, overCells n m step A = .ok R) := by
  unfold overCells
  have key := foldlM_range_both (fun A i => (List.range m).foldlM (fun A j => step A i j) A)
    (fun i A => Holds A n m (fun a b => if a < i then v a b else f a b)) T n A
    (hA.congr fun i _ j _ => by simp) ?_
  · exact ⟨fun R h => (key.1 R h).congr fun i hi j _ => by simp [hi], key.2⟩
  intro i hi A hA
  have key := foldlM_range_both (fun A j => step A i j)
    (fun j A => Holds A n m (fun a b => if a < i ∨ (a = i ∧ b < j) then v a b else f a b)) T m A
    (hA.congr fun a _ b _ => by simp) ?_
  · refine ⟨fun R h => (key.1 R h).congr fun a _ b hb => ?_, key.2⟩
    by_cases h1 : a < i
    · simp [h1, Nat.lt_succ_of_lt h1]
    · by_cases h2 : a = i
      · simp [h2, hb]
      · rw [if_neg (by omega), if_neg (by omega)]
  intro j hj A hA
  obtain ⟨o, e, h1, h2⟩ := hs i hi j hj A hA
  rw [e]
  constructor
  · intro A' h
    obtain ⟨z, ez, h⟩ := Out.bind_eq_ok.mp h
    obtain ⟨A'', e', hA''⟩ := hset hA hi hj z
    rw [h] at e'; cases e'
    refine hA''.congr fun a _ b _ => ?_
    by_cases hab : a = i ∧ b = j
    · rw [if_pos hab, hab.1, hab.2, if_pos (by omega), h1 z ez]
    · rw [if_neg hab]
      by_cases hc : a < i ∨ (a = i ∧ b < j)
      · rw [if_pos hc, if_pos (by omega)]
      · rw [if_neg hc, if_neg (by omega)]
  · intro t
    obtain ⟨z, ez⟩ := h2 t
    obtain ⟨A'', e', _⟩ := hset hA hi hj z
    exact ⟨A'', by rw [ez]; exact e'⟩

theorem product_both [Ring α] {ar : Arith α} (hs : Sound ar) {A B : Mat α} {n l m : Nat} {f g : Nat → Nat → α}
    (hA : Holds A n l f) (hB : Holds B l m g) (T : Prop)
    (hT : T → ∀ i, i < n → ∀ j, j < m → ∀ k, k < l → (∃ z, ar.mul (f i k) (g k j) = .ok z) ∧
      (∃ z, ar.add (dot k f g i j) (f i k * g k j) = .ok z)) :
    (∀ R, product ar A B = .ok R → Holds R n m (dot l f g)) ∧ (T → ∃ R, product ar A B = .ok R) := by
  unfold product
  rw [hA.row, hB.col, hA.col]
  have key := foldlM_range_both (fun ret i => (List.range m).foldlM (fun ret j =>
      (List.range l).foldlM (timesStep ar A B i j) ret) ret)
    (fun i ret => Holds ret n m (fun a b => if a < i then dot l f g a b else 0)) T n _
    ((new_holds ar hs.zero n m).congr fun i _ j _ => by simp) ?_
  · exact ⟨fun R h => (key.1 R h).congr fun i hi j _ => by simp [hi], key.2⟩
  intro i hi ret hret
  have key := foldlM_range_both (fun ret j => (List.range l).foldlM (timesStep ar A B i j) ret)
    (fun j ret => Holds ret n m (fun a b => if a < i ∨ (a = i ∧ b < j) then dot l f g a b else 0)) T m ret
    (hret.congr fun a _ b _ => by simp) ?_
  · refine ⟨fun R h => (key.1 R h).congr fun a _ b hb => ?_, key.2⟩
    by_cases h1 : a < i
    · simp [h1, Nat.lt_succ_of_lt h1]
    · by_cases h2 : a = i
      · simp [h2, hb]
      · rw [if_neg (by omega), if_neg (by omega)]
  intro j hj ret hret
  have key := foldlM_range_both (timesStep ar A B i j)
    (fun k ret => Holds ret n m (fun a b => if a = i ∧ b = j then dot k f g i j else
      if a < i ∨ (a = i ∧ b < j) then dot l f g a b else 0)) T l ret
    (hret.congr fun a _ b _ => by
      by_cases hab : a = i ∧ b = j
      · rw [if_pos hab, if_neg (by omega)]; simp [dot]
      · rw [if_neg hab]) ?_
  · refine ⟨fun R h => (key.1 R h).congr fun a _ b _ => ?_, key.2⟩
    by_cases hab : a = i ∧ b = j
    · rw [if_pos hab, if_pos (by omega), hab.1, hab.2]
    · rw [if_neg hab]
      by_cases hc : a < i ∨ (a = i ∧ b < j)
      · rw [if_pos hc, if_pos (by omega)]
      · rw [if_neg hc, if_neg (by omega)]
  intro k hk ret hret
  unfold timesStep
  rw [hget hA hi hk, Out.ok_bind, hget hB hk hj, Out.ok_bind, hget hret hi hj, if_pos ⟨rfl, rfl⟩]
  have hd : dot (k + 1) f g i j = dot k f g i j + f i k * g k j := by
    unfold dot; rw [Finset.sum_range_succ]
  constructor
  · intro R h
    obtain ⟨p, ep, h⟩ := Out.bind_eq_ok.mp h
    rw [Out.ok_bind] at h
    obtain ⟨z, ez, h⟩ := Out.bind_eq_ok.mp h
    have hp := hs.mul _ _ _ ep
    have hz := hs.add _ _ _ ez
    obtain ⟨A'', e', hA''⟩ := hset hret hi hj z
    rw [h] at e'; cases e'
    refine hA''.congr fun a _ b _ => ?_
    by_cases hab : a = i ∧ b = j
    · rw [if_pos hab, if_pos hab, hz, hp, hd]
    · rw [if_neg hab, if_neg hab, if_neg hab]
  · intro t
    obtain ⟨⟨p, ep⟩, ⟨z, ez⟩⟩ := hT t i hi j hj k hk
    have hp := hs.mul _ _ _ ep
    obtain ⟨A'', e', _⟩ := hset hret hi hj z
    refine ⟨A'', ?_⟩
    rw [ep, Out.ok_bind, Out.ok_bind, hp, ez, Out.ok_bind]
    exact e'

theorem copy_holds {A : Mat α} {n m : Nat} {f : Nat → Nat → α} (h : Holds A n m f) :
    ∃ B, copy A = .ok B ∧ Holds B n m f := by
  unfold copy
  rw [if_pos (.inl h.alive)]
  exact ⟨_, rfl, rfl, h.row, h.col, h.entry⟩

theorem exact_sound (α : Type) [Field α] [DecidableEq α] : Sound (Arith.exact α) :=
  ⟨rfl, rfl, fun _ _ _ h => by cases h; rfl, fun _ _ _ h => by cases h; rfl, fun _ _ _ h => by cases h; rfl⟩

theorem ofInt_sound : Sound Arith.ofInt :=
  ⟨rfl, rfl, fun _ _ _ h => ((int_eq_ok.mp h).2).symm, fun _ _ _ h => ((int_eq_ok.mp h).2).symm,
    fun _ _ _ h => ((int_eq_ok.mp h).2).symm⟩

/-! ### comparison -/

theorem allM_range (p : Nat → Bool) (f : Nat → Out Bool) (l : List Nat) (h : ∀ i ∈ l, f i = .ok (p i)) :
    l.allM f = .ok (l.all p) := by
  induction l with
  | nil => rfl
  | cons a l ih =>
    simp only [List.allM, List.all_cons]
    rw [h a (by simp), Out.ok_bind]
    cases hp : p a
    · rfl
    · simpa using ih fun i hi => h i (by simp [hi])

theorem eq_holds [DecidableEq α] {A B : Mat α} {n m n' m' : Nat} {f g : Nat → Nat → α} (hA : Holds A n m f)
    (hB : Holds B n' m' g) :
    eq A B = .ok (decide (n = n' ∧ m = m' ∧ ∀ i, i < n → ∀ j, j < m → f i j = g i j)) := by
  unfold eq
  rw [hA.row, hA.col, hB.row, hB.col]
  by_cases h : n ≠ n' ∨ m ≠ m'
  · rw [if_pos h]
    have : ¬ (n = n' ∧ m = m' ∧ ∀ i, i < n → ∀ j, j < m → f i j = g i j) := by
      rintro ⟨h1, h2, _⟩; omega
    rw [decide_eq_false this]
  · rw [if_neg h]
    have hn : n' = n := by omega
    have hm : m' = m := by omega
    subst hn hm
    rw [allM_range (fun i => (List.range m').all fun j => decide (f i j = g i j))]
    · congr 1
      rw [Bool.eq_iff_iff]
      simp [List.all_eq_true]
    · intro i hi
      rw [allM_range (fun j => decide (f i j = g i j))]
      intro j hj
      rw [hget hA (List.mem_range.mp hi) (List.mem_range.mp hj), Out.ok_bind,
        hget hB (List.mem_range.mp hi) (List.mem_range.mp hj), Out.ok_bind]

theorem plus_both [Ring α] {ar : Arith α} (hs : Sound ar) {A B : Mat α} {n m : Nat} {f g : Nat → Nat → α}
    (hA : Holds A n m f) (hB : Holds B n m g) (T : Prop)
    (hT : T → ∀ i, i < n → ∀ j, j < m → ∃ z, ar.add (f i j) (g i j) = .ok z) :
    (∀ R, plus ar A B = .ok R → Holds R n m (fun i j => f i j + g i j)) ∧ (T → ∃ R, plus ar A B = .ok R) := by
  unfold plus
  rw [hA.row, hA.col, hB.row, hB.col, if_neg (by simp)]
  refine overCells_both _ _ (fun _ _ => 0) _ T (new_holds ar hs.zero n m) ?_
  intro i hi j hj X _
  refine ⟨ar.add (f i j) (g i j), ?_, fun z h => hs.add _ _ _ h, fun t => hT t i hi j hj⟩
  rw [hget hA hi hj, Out.ok_bind, hget hB hi hj, Out.ok_bind]

theorem minus_both [Ring α] {ar : Arith α} (hs : Sound ar) {A B : Mat α} {n m : Nat} {f g : Nat → Nat → α}
    (hA : Holds A n m f) (hB : Holds B n m g) (T : Prop)
    (hT : T → ∀ i, i < n → ∀ j, j < m → ∃ z, ar.sub (f i j) (g i j) = .ok z) :
    (∀ R, minus ar A B = .ok R → Holds R n m (fun i j => f i j - g i j)) ∧ (T → ∃ R, minus ar A B = .ok R) := by
  unfold minus
  rw [hA.row, hA.col, hB.row, hB.col, if_neg (by simp)]
  refine overCells_both _ _ (fun _ _ => 0) _ T (new_holds ar hs.zero n m) ?_
  intro i hi j hj X _
  refine ⟨ar.sub (f i j) (g i j), ?_, fun z h => hs.sub _ _ _ h, fun t => hT t i hi j hj⟩
  rw [hget hA hi hj, Out.ok_bind, hget hB hi hj, Out.ok_bind]

theorem plusAssign_both [Ring α] {ar : Arith α} (hs : Sound ar) {A B : Mat α} {n m : Nat} {f g : Nat → Nat → α}
    (hA : Holds A n m f) (hB : Holds B n m g) (T : Prop)
    (hT : T → ∀ i, i < n → ∀ j, j < m → ∃ z, ar.add (f i j) (g i j) = .ok z) :
    (∀ R, plusAssign ar A B = .ok R → Holds R n m (fun i j => f i j + g i j)) ∧ (T → ∃ R, plusAssign ar A B = .ok R) := by
  unfold plusAssign
  rw [hA.row, hA.col, hB.row, hB.col, if_neg (by simp)]
  refine overCells_both _ _ f _ T hA ?_
  intro i hi j hj X hX
  refine ⟨ar.add (f i j) (g i j), ?_, fun z h => hs.add _ _ _ h, fun t => hT t i hi j hj⟩
  rw [hget hX hi hj, Out.ok_bind, hget hB hi hj, Out.ok_bind, if_neg (by omega)]

theorem minusAssign_both [Ring α] {ar : Arith α} (hs : Sound ar) {A B : Mat α} {n m : Nat} {f g : Nat → Nat → α}
    (hA : Holds A n m f) (hB : Holds B n m g) (T : Prop)
    (hT : T → ∀ i, i < n → ∀ j, j < m → ∃ z, ar.sub (f i j) (g i j) = .ok z) :
    (∀ R, minusAssign ar A B = .ok R → Holds R n m (fun i j => f i j - g i j)) ∧ (T → ∃ R, minusAssign ar A B = .ok R) := by
  unfold minusAssign
  rw [hA.row, hA.col, hB.row, hB.col, if_neg (by simp)]
  refine overCells_both _ _ f _ T hA ?_
  intro i hi j hj X hX
  refine ⟨ar.sub (f i j) (g i j), ?_, fun z h => hs.sub _ _ _ h, fun t => hT t i hi j hj⟩
  rw [hget hX hi hj, Out.ok_bind, hget hB hi hj, Out.ok_bind, if_neg (by omega)]

theorem times_both [Ring α] {ar : Arith α} (hs : Sound ar) {A B : Mat α} {n l m : Nat} {f g : Nat → Nat → α}
    (hA : Holds A n l f) (hB : Holds B l m g) (T : Prop)
    (hT : T → ∀ i, i < n → ∀ j, j < m → ∀ k, k < l → (∃ z, ar.mul (f i k) (g k j) = .ok z) ∧
      (∃ z, ar.add (dot k f g i j) (f i k * g k j) = .ok z)) :
    (∀ R, times ar A B = .ok R → Holds R n m (dot l f g)) ∧ (T → ∃ R, times ar A B = .ok R) := by
  have key := product_both hs hA hB T hT
  unfold times
  rw [if_neg (by rw [hA.col, hB.row]; simp)]
  constructor
  · intro R h
    obtain ⟨P, e, h⟩ := Out.bind_eq_ok.mp h
    obtain ⟨R', e', h'⟩ := copy_holds (key.1 P e)
    rw [h] at e'; cases e'; exact h'
  · intro t
    obtain ⟨P, e⟩ := key.2 t
    obtain ⟨R', e', _⟩ := copy_holds (key.1 P e)
    exact ⟨R', by rw [e]; exact e'⟩

end Matrix
