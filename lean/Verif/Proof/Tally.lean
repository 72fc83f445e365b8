import Verif.Model.Tally
import Verif.Spec.Tally

/-! # Lemmas on counted programs -/

namespace Tally
open Cpp

variable {α β : Type}

theorem out_bind (x : Job α) (f : α → Job β) : (x >>= f).out = x.out >>= fun a => (f a).out := by
  show (Job.bind x f).out = _
  unfold Job.bind
  cases x.out <;> rfl

theorem out_ite (c : Prop) [Decidable c] (x y : Job α) : (if c then x else y).out = if c then x.out else y.out := by
  split <;> rfl

@[simp] theorem out_pure (a : α) : (pure a : Job α).out = .ok a := rfl
@[simp] theorem out_free (x : Out α) : (free x).out = x := rfl
@[simp] theorem out_one (x : Out α) : (one x).out = x := rfl
@[simp] theorem out_use (n : Nat) : (use n).out = .ok () := rfl
@[simp] theorem out_take (n : Nat) : (take n).out = .ok () := rfl
@[simp] theorem out_give (n : Nat) : (give n).out = .ok () := rfl

theorem foldlM_out {σ ι : Type} (f : σ → ι → Job σ) (g : σ → ι → Out σ) (h : ∀ s i, (f s i).out = g s i) :
    ∀ (l : List ι) (s : σ), (l.foldlM f s).out = l.foldlM g s := by
  intro l
  induction l with
  | nil => intro s; rfl
  | cons i l ih =>
    intro s
    rw [List.foldlM_cons, List.foldlM_cons, out_bind, h]
    congr 1
    funext a
    exact ih a

/-! ### exact counts -/

/-- If `x` comes to its end, it has used `n` cells and taken and given back the blocks `t`. -/
def Costs (n : Nat) (t : List Int) (x : Job α) : Prop := ∀ a, x.out = .ok a → x.uses = n ∧ x.mem = t

theorem costs_free (x : Out α) : Costs 0 [] (free x) := fun _ _ => ⟨rfl, rfl⟩
theorem costs_one (x : Out α) : Costs 1 [] (one x) := fun _ _ => ⟨rfl, rfl⟩
theorem costs_use (n : Nat) : Costs n [] (use n) := fun _ _ => ⟨rfl, rfl⟩
theorem costs_take (n : Nat) : Costs 0 [(n : Int)] (take n) := fun _ _ => ⟨rfl, rfl⟩
theorem costs_give (n : Nat) : Costs 0 [-(n : Int)] (give n) := fun _ _ => ⟨rfl, rfl⟩

theorem Costs.seq {n k : Nat} {t u : List Int} {x : Job α} {f : α → Job β} (hx : Costs n t x)
    (hf : ∀ a, x.out = .ok a → Costs k u (f a)) : Costs (n + k) (t ++ u) (x >>= f) := by
  intro b hb
  rw [out_bind] at hb
  obtain ⟨a, ha, hb⟩ := Out.bind_eq_ok.1 hb
  obtain ⟨h1, h2⟩ := hx a ha
  obtain ⟨h3, h4⟩ := hf a ha b hb
  show (Job.bind x f).uses = _ ∧ (Job.bind x f).mem = _
  unfold Job.bind
  rw [ha]
  exact ⟨by show _ + _ = _; rw [h1, h3], by show _ ++ _ = _; rw [h2, h4]⟩

theorem Costs.cast {n k : Nat} {t u : List Int} {x : Job α} (h : Costs n t x) (hn : n = k) (ht : t = u) : Costs k u x := by
  subst hn; subst ht; exact h

theorem costs_foldlM {σ ι : Type} {n : Nat} {t : List Int} (f : σ → ι → Job σ) :
    ∀ (l : List ι) (s : σ), (∀ s, ∀ i ∈ l, Costs n t (f s i)) →
      Costs (l.length * n) (List.replicate l.length t).flatten (l.foldlM f s) := by
  intro l
  induction l with
  | nil => intro s _ a _; exact ⟨by simp; rfl, rfl⟩
  | cons i l ih =>
    intro s h
    rw [List.foldlM_cons]
    refine ((h s i (by simp)).seq fun a _ => ih a fun s j hj => h s j (by simp [hj])).cast ?_ ?_
    · rw [List.length_cons, Nat.add_mul]; omega
    · rw [List.length_cons, List.replicate_succ, List.flatten_cons]

/-! ### bounds -/

/-- At most `n` cells are used, whatever happens. -/
def AtMost (n : Nat) (x : Job α) : Prop := x.uses ≤ n

theorem AtMost.mono {n k : Nat} {x : Job α} (h : AtMost n x) (hk : n ≤ k) : AtMost k x := Nat.le_trans h hk

theorem most_free (x : Out α) : AtMost 0 (free x) := Nat.le_refl _
theorem most_one (x : Out α) : AtMost 1 (one x) := Nat.le_refl _
theorem most_use (n : Nat) : AtMost n (use n) := Nat.le_refl _

theorem AtMost.seq {n k : Nat} {x : Job α} {f : α → Job β} (hx : AtMost n x)
    (hf : ∀ a, x.out = .ok a → AtMost k (f a)) : AtMost (n + k) (x >>= f) := by
  show (Job.bind x f).uses ≤ _
  unfold AtMost at hx
  unfold Job.bind
  cases e : x.out with
  | ok a => exact Nat.add_le_add hx (hf a e)
  | exit => exact Nat.le_add_right_of_le hx
  | ub => exact Nat.le_add_right_of_le hx
  | diverge => exact Nat.le_add_right_of_le hx

/-- A loop whose states keep `P`. -/
theorem most_foldlM {σ ι : Type} {n : Nat} (P : σ → Prop) (f : σ → ι → Job σ) :
    ∀ (l : List ι) (s : σ), P s → (∀ s, P s → ∀ i ∈ l, AtMost n (f s i) ∧ ∀ a, (f s i).out = .ok a → P a) →
      AtMost (l.length * n) (l.foldlM f s) := by
  intro l
  induction l with
  | nil => intro s _ _; exact Nat.zero_le _
  | cons i l ih =>
    intro s hs h
    rw [List.foldlM_cons, List.length_cons, Nat.add_mul, Nat.one_mul, Nat.add_comm]
    refine (h s hs i (by simp)).1.seq fun a ha => ih a ((h s hs i (by simp)).2 a ha) fun s hs j hj => h s hs j (by simp [hj])

/-! ### memory -/

theorem peak_nonneg : ∀ t, 0 ≤ Spec.peak t
  | [] => Int.le_refl _
  | _ :: _ => le_max_left _ _

theorem peak_cons_take (n : Nat) (t : List Int) : Spec.peak ((n : Int) :: t) = n + Spec.peak t := by
  show max 0 _ = _
  have := peak_nonneg t
  exact max_eq_right (by omega)

theorem peak_takes (n k : Nat) (t : List Int) :
    Spec.peak ((List.replicate k [(n : Int)]).flatten ++ t) = k * n + Spec.peak t := by
  induction k with
  | zero => simp
  | succ k ih =>
    rw [List.replicate_succ, List.flatten_cons, List.append_assoc, List.singleton_append, peak_cons_take, ih]
    push_cast
    rw [Int.add_mul]; omega

theorem peak_nonpos : ∀ t : List Int, (∀ x ∈ t, x ≤ 0) → Spec.peak t = 0
  | [], _ => rfl
  | x :: t, h => by
    show max 0 _ = _
    rw [peak_nonpos t fun y hy => h y (by simp [hy])]
    exact max_eq_left (by have := h x (by simp); omega)

theorem sum_same (x : Int) (k : Nat) : (List.replicate k [x]).flatten.sum = k * x := by
  induction k with
  | zero => simp
  | succ k ih =>
    rw [List.replicate_succ, List.flatten_cons, List.singleton_append, List.sum_cons, ih]
    push_cast
    rw [Int.add_mul]; omega

end Tally
