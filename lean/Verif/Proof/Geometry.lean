import Verif.Model.Geometry
import Verif.Spec.Geometry
import Mathlib.Tactic.Linarith
import Mathlib.Tactic.FieldSimp
import Mathlib.Tactic.Ring
import Mathlib.Tactic.NormNum
import Mathlib.Tactic.Positivity
import Mathlib.Tactic.FinCases

/-! # Lemmas about the model of the geometry classes -/

namespace Geo
open Cpp

theorem finRange2 : List.finRange 2 = [0, 1] := rfl

theorem dot2 (p q : Point 2 ℝ) : dot p q = p 0 * q 0 + p 1 * q 1 := by
  simp [dot, finRange2]

theorem len2 (p : Point 2 ℝ) : len Fp.real p = Real.sqrt (p 0 ^ 2 + p 1 ^ 2) := by
  simp [len, finRange2, Fp.real, pow_two]

theorem sub_run {D : Type} [Sub D] (p q : Point N D) (n : Nat) : (sub p q).run n = (fun i => p i - q i, n + 1) := rfl
theorem add_run (p q : Point N ℝ) (n : Nat) : (add p q).run n = (fun i => p i + q i, n + 1) := rfl
theorem smul_run (p : Point N ℝ) (c : ℝ) (n : Nat) : (smul p c).run n = (fun i => p i * c, n + 1) := rfl

theorem getIntersection_run (l1 l2 : Line ℝ) (n : Nat) : (getIntersection l1 l2).run n =
    (fun i => l1.A i + l1.v i * (cross l2.v (fun i => l1.A i - l2.A i) / cross l1.v l2.v), n + 3) := rfl

theorem disToLine_run (P : Point 2 ℝ) (l : Line ℝ) (n : Nat) : (disToLine Fp.real P l).run n =
    (|cross l.v (fun i => P i - l.A i) / len Fp.real l.v|, n + 1) := rfl

theorem disToSegment_run {D : Type} [Add D] [Sub D] [Mul D] [Div D] [IntCast D] [LT D] [DecidableLT D] (F : Fp D)
    (P : Point 2 D) (l : Line D) (n : Nat) : (disToSegment F P l).run n =
    (if dcmp F (dot l.v fun i => P i - l.A i) < 0 then len F (fun i => P i - l.A i)
    else if 0 < dcmp F (dot l.v fun i => P i - l.A i - l.v i) then
      len F (fun i => P i - l.A i - l.v i)
    else F.fabs (cross l.v (fun i => P i - l.A i) / len F l.v), n + 3) := by
  unfold disToSegment
  simp only [StateT.run_bind, sub_run]
  dsimp only [bind, Id.run]
  split_ifs <;> rfl

theorem dcmp_neg (x : ℝ) : dcmp Fp.real x < 0 ↔ x ≤ -(1 / 10 ^ 6) := by
  unfold dcmp
  show (if |x| < 1 / 10 ^ 6 then 0 else _) < 0 ↔ _
  split_ifs with h1 h2 <;> rw [abs_lt] at h1
  · constructor
    · intro h; omega
    · intro h; linarith [h1.1]
  · constructor
    · intro h; omega
    · intro h
      push_cast at h2
      norm_num at h
      linarith
  · refine ⟨fun _ => ?_, fun _ => by norm_num⟩
    by_contra h
    push_cast at h2
    push Not at h
    exact h1 ⟨h, by linarith [show (0 : ℝ) < 1 / 10 ^ 6 by norm_num]⟩

theorem dcmp_pos (x : ℝ) : 0 < dcmp Fp.real x ↔ 1 / 10 ^ 6 ≤ x := by
  unfold dcmp
  show 0 < (if |x| < 1 / 10 ^ 6 then 0 else _) ↔ _
  split_ifs with h1 h2 <;> rw [abs_lt] at h1
  · constructor
    · intro h; omega
    · intro h; linarith [h1.2]
  · refine ⟨fun _ => ?_, fun _ => by norm_num⟩
    by_contra h
    push_cast at h2
    push Not at h
    exact h1 ⟨by linarith [show (0 : ℝ) < 1 / 10 ^ 6 by norm_num], h⟩
  · constructor
    · intro h; omega
    · intro h
      push_cast at h2
      norm_num at h
      linarith

open Spec

theorem dist2 (p q : Point 2 ℝ) : Spec.dist p q = Real.sqrt ((p 0 - q 0) ^ 2 + (p 1 - q 1) ^ 2) := by
  simp [Spec.dist, Fin.sum_univ_two]

theorem parallel_iff (v w : Point 2 ℝ) : Parallel v w ↔ cross v w = 0 := by
  unfold Parallel cross
  constructor
  · rintro ⟨a, b, h, e⟩
    have e0 := e 0
    have e1 := e 1
    rcases h with h | h
    · have : a * (v 0 * w 1 - v 1 * w 0) = 0 := by linear_combination w 1 * e0 - w 0 * e1
      exact (mul_eq_zero.1 this).resolve_left h
    · have : b * (v 0 * w 1 - v 1 * w 0) = 0 := by linear_combination v 1 * e0 - v 0 * e1
      exact (mul_eq_zero.1 this).resolve_left h
  · intro h
    by_cases hw : w 0 = 0 ∧ w 1 = 0
    · refine ⟨0, 1, Or.inr one_ne_zero, fun i => ?_⟩
      fin_cases i <;> simp [hw]
    · by_cases h0 : w 0 = 0
      · have h1 : w 1 ≠ 0 := fun h1 => hw ⟨h0, h1⟩
        refine ⟨w 1, v 1, Or.inl h1, fun i => ?_⟩
        fin_cases i
        · show w 1 * v 0 = v 1 * w 0
          linear_combination h
        · show w 1 * v 1 = v 1 * w 1
          ring
      · refine ⟨w 0, v 0, Or.inl h0, fun i => ?_⟩
        fin_cases i
        · show w 0 * v 0 = v 0 * w 0
          ring
        · show w 0 * v 1 = v 0 * w 1
          linear_combination -h

/-- The squared distance to the point `A + t v`, times `|v|²`. -/
theorem pythagoras (x y a b t : ℝ) : ((x - t * a) ^ 2 + (y - t * b) ^ 2) * (a ^ 2 + b ^ 2) =
    (a * y - b * x) ^ 2 + (a * x + b * y - t * (a ^ 2 + b ^ 2)) ^ 2 := by ring

theorem normSq_pos (v : Point 2 ℝ) (hv : v ≠ 0) : 0 < v 0 ^ 2 + v 1 ^ 2 := by
  have h0 := sq_nonneg (v 0)
  have h1 := sq_nonneg (v 1)
  rcases lt_or_eq_of_le (add_nonneg h0 h1) with h | h
  · exact h
  · exfalso
    apply hv
    have e0 : v 0 = 0 := by
      have : v 0 ^ 2 = 0 := by linarith
      exact pow_eq_zero_iff (two_ne_zero) |>.1 this
    have e1 : v 1 = 0 := by
      have : v 1 ^ 2 = 0 := by linarith
      exact pow_eq_zero_iff (two_ne_zero) |>.1 this
    funext i
    fin_cases i
    · exact e0
    · exact e1

/-- Distance from the line as computed. -/
theorem lineDist (x y a b : ℝ) :
    |(a * y - b * x) / Real.sqrt (a ^ 2 + b ^ 2)| = Real.sqrt ((a * y - b * x) ^ 2 / (a ^ 2 + b ^ 2)) := by
  rw [Real.sqrt_div (sq_nonneg _), Real.sqrt_sq_eq_abs, abs_div, abs_of_nonneg (Real.sqrt_nonneg _)]

/-- What the comparison loop decides, for coordinates embedded in a linear order by `e`. -/
theorem cmpLoop_iff {D K : Type} [LinearOrder K] (e : D → K) (F : Fp D) (rel : D → D → Bool) (dflt : Bool)
    (p q : Point N D) (hne : ∀ i, F.ne (p i) (q i) = decide (e (p i) ≠ e (q i))) :
    ∀ is : List (Fin N), is.Pairwise (· < ·) → (cmpLoop F rel dflt p q is = true ↔
      (∃ i ∈ is, (∀ j ∈ is, j < i → e (p j) = e (q j)) ∧ e (p i) ≠ e (q i) ∧ rel (p i) (q i) = true) ∨
      ((∀ j ∈ is, e (p j) = e (q j)) ∧ dflt = true)) := by
  intro is
  induction is with
  | nil => simp [cmpLoop]
  | cons i is ih =>
    intro hp
    have ih := ih (List.pairwise_cons.1 hp).2
    have hi := (List.pairwise_cons.1 hp).1
    unfold cmpLoop
    rw [hne]
    by_cases h : e (p i) = e (q i)
    · simp only [h, ne_eq, not_true_eq_false, decide_false, Bool.false_eq_true, if_false, ih,
        List.mem_cons, forall_eq_or_imp, true_and]
      constructor
      · rintro (⟨k, hk, h1, h2, h3⟩ | h')
        · exact Or.inl ⟨k, Or.inr hk, ⟨fun _ => trivial, h1⟩, h2, h3⟩
        · exact Or.inr h'
      · rintro (⟨k, rfl | hk, h1, h2, h3⟩ | h')
        · exact absurd h h2
        · exact Or.inl ⟨k, hk, h1.2, h2, h3⟩
        · exact Or.inr h'
    · simp only [h, ne_eq, not_false_eq_true, decide_true, if_true, List.mem_cons]
      constructor
      · intro hr
        refine Or.inl ⟨i, Or.inl rfl, ?_, h, hr⟩
        rintro j (rfl | hj) hlt
        · exact absurd hlt (lt_irrefl _)
        · exact absurd (hi j hj) (not_lt.2 hlt.le)
      · rintro (⟨k, rfl | hk, h1, h2, h3⟩ | ⟨h', _⟩)
        · exact h3
        · exact absurd (h1 i (Or.inl rfl) (hi k hk)) h
        · exact absurd (h' i (Or.inl rfl)) h

theorem finRange_pairwise (N : Nat) : (List.finRange N).Pairwise (· < ·) := by
  rw [List.pairwise_iff_getElem]
  intro i j hi hj hij
  simpa using hij

/-- The four comparisons are those of the lexicographic order. -/
theorem cmp_iff {D K : Type} [LT D] [DecidableLT D] [LinearOrder K] (e : D → K) (F : Fp D)
    (p q : Point N D) (hne : ∀ i, F.ne (p i) (q i) = decide (e (p i) ≠ e (q i)))
    (hlt : ∀ i, p i < q i ↔ e (p i) < e (q i)) (hgt : ∀ i, q i < p i ↔ e (q i) < e (p i)) :
    (lt F p q = true ↔ LexLt (fun i => e (p i)) fun i => e (q i)) ∧
    (gt F p q = true ↔ LexLt (fun i => e (q i)) fun i => e (p i)) ∧
    (le F p q = true ↔ LexLt (fun i => e (p i)) (fun i => e (q i)) ∨ ∀ i, e (p i) = e (q i)) ∧
    (ge F p q = true ↔ LexLt (fun i => e (q i)) (fun i => e (p i)) ∨ ∀ i, e (p i) = e (q i)) := by
  have key : ∀ dflt, (cmpLoop F (fun a b => decide (a < b)) dflt p q (List.finRange N) = true ↔
      LexLt (fun i => e (p i)) (fun i => e (q i)) ∨ ((∀ i, e (p i) = e (q i)) ∧ dflt = true)) := by
    intro dflt
    rw [cmpLoop_iff e F _ dflt p q hne _ (finRange_pairwise N)]
    simp only [List.mem_finRange, true_and, forall_true_left, decide_eq_true_eq, hlt]
    refine or_congr_left ⟨?_, ?_⟩
    · rintro ⟨i, h1, _, h3⟩
      exact ⟨i, h3, h1⟩
    · rintro ⟨i, h3, h1⟩
      exact ⟨i, h1, ne_of_lt h3, h3⟩
  have key' : ∀ dflt, (cmpLoop F (fun a b => decide (b < a)) dflt p q (List.finRange N) = true ↔
      LexLt (fun i => e (q i)) (fun i => e (p i)) ∨ ((∀ i, e (p i) = e (q i)) ∧ dflt = true)) := by
    intro dflt
    rw [cmpLoop_iff e F _ dflt p q hne _ (finRange_pairwise N)]
    simp only [List.mem_finRange, true_and, forall_true_left, decide_eq_true_eq, hgt]
    refine or_congr_left ⟨?_, ?_⟩
    · rintro ⟨i, h1, _, h3⟩
      exact ⟨i, h3, fun j hj => (h1 j hj).symm⟩
    · rintro ⟨i, h3, h1⟩
      exact ⟨i, fun j hj => (h1 j hj).symm, ne_of_gt h3, h3⟩
  refine ⟨(key false).trans (by simp), (key' false).trans (by simp), (key true).trans (by simp),
    (key' true).trans (by simp)⟩

theorem lexLt_irrefl {K : Type} [LinearOrder K] (p : Fin N → K) : ¬ LexLt p p := by
  rintro ⟨i, h, _⟩
  exact lt_irrefl _ h

theorem lexLt_trans {K : Type} [LinearOrder K] (p q r : Fin N → K) (h1 : LexLt p q) (h2 : LexLt q r) :
    LexLt p r := by
  obtain ⟨i, hi, hi'⟩ := h1
  obtain ⟨j, hj, hj'⟩ := h2
  rcases lt_trichotomy i j with h | h | h
  · exact ⟨i, by rw [← hj' i h]; exact hi, fun k hk => (hi' k hk).trans (hj' k (hk.trans h))⟩
  · subst h
    exact ⟨i, hi.trans hj, fun k hk => (hi' k hk).trans (hj' k hk)⟩
  · exact ⟨j, by rw [hi' j h]; exact hj, fun k hk => (hi' k (hk.trans h)).trans (hj' k hk)⟩

theorem lexLt_total {K : Type} [LinearOrder K] (p q : Fin N → K) : LexLt p q ∨ p = q ∨ LexLt q p := by
  by_cases h : p = q
  · exact Or.inr (Or.inl h)
  · have : ∃ i, p i ≠ q i := by
      by_contra hc
      push Not at hc
      exact h (funext hc)
    classical
    let i := Fin.find (fun i => p i ≠ q i) this
    have hi : p i ≠ q i := Fin.find_spec this
    have hm : ∀ j < i, p j = q j := fun j hj => by
      by_contra hc
      exact Fin.find_min this hj hc
    rcases lt_or_gt_of_ne hi with h | h
    · exact Or.inl ⟨i, h, hm⟩
    · exact Or.inr (Or.inr ⟨i, h, fun j hj => (hm j hj).symm⟩)

/-- Doubles other than NaN, as an ordered set. -/
def key : Dbl → WithBot (WithTop ℚ)
  | .nan => ⊥
  | .inf true => ⊥
  | .inf false => ((⊤ : WithTop ℚ) : WithBot (WithTop ℚ))
  | .fin q => ((q : WithTop ℚ) : WithBot (WithTop ℚ))

theorem key_lt (a b : Dbl) (ha : a ≠ .nan) (hb : b ≠ .nan) : a < b ↔ key a < key b := by
  show Dbl.lt a b = true ↔ _
  match a, b with
  | .nan, _ => exact absurd rfl ha
  | .fin _, .nan => exact absurd rfl hb
  | .inf _, .nan => exact absurd rfl hb
  | .fin p, .fin q =>
    simp [Dbl.lt, key]
  | .inf true, .fin q => simp [Dbl.lt, key, WithBot.bot_lt_coe]
  | .inf false, .fin q => simp [Dbl.lt, key]
  | .fin q, .inf true => simp [Dbl.lt, key]
  | .fin q, .inf false =>
    simp only [Dbl.lt, key, Bool.not_false, true_iff]
    exact WithBot.coe_lt_coe.2 (WithTop.coe_lt_top q)
  | .inf true, .inf true => simp [Dbl.lt, key]
  | .inf false, .inf true => simp [Dbl.lt, key]
  | .inf true, .inf false => simp [Dbl.lt, key]
  | .inf false, .inf false => simp [Dbl.lt, key]

theorem key_inj (a b : Dbl) (ha : a ≠ .nan) (hb : b ≠ .nan) : key a = key b ↔ a = b := by
  match a, b with
  | .nan, _ => exact absurd rfl ha
  | .fin _, .nan => exact absurd rfl hb
  | .inf _, .nan => exact absurd rfl hb
  | .fin p, .fin q => simp [key]
  | .inf true, .fin q => simp [key]
  | .inf false, .fin q => simp [key]
  | .fin q, .inf true => simp [key]
  | .fin q, .inf false => simp [key]
  | .inf true, .inf true => simp [key]
  | .inf false, .inf true => simp [key]
  | .inf true, .inf false => simp [key]
  | .inf false, .inf false => simp [key]

/-- A loop that replaces every coordinate by a function of itself. -/
theorem foldl_update {D : Type} (g : Fin N → D → D) : ∀ (is : List (Fin N)) (p : Point N D), is.Nodup → ∀ j,
    is.foldl (fun p i => Function.update p i (g i (p i))) p j = if j ∈ is then g j (p j) else p j := by
  intro is
  induction is with
  | nil => intro p _ j; simp
  | cons i is ih =>
    intro p hn j
    have hn' := List.nodup_cons.1 hn
    rw [List.foldl_cons, ih _ hn'.2 j]
    by_cases hji : j = i
    · subst hji
      rw [if_neg hn'.1, if_pos (by simp)]
      simp
    · rw [Function.update_of_ne hji]
      simp [hji]

theorem foldl_update_all {D : Type} (g : Fin N → D → D) (p : Point N D) :
    (List.finRange N).foldl (fun p i => Function.update p i (g i (p i))) p = fun i => g i (p i) := by
  funext j
  rw [foldl_update g _ p (List.nodup_finRange N) j, if_pos (List.mem_finRange j)]

/-- A loop that combines every coordinate with coordinate `k` in place. -/
theorem foldl_alias {D : Type} (op : D → D → D) (k : Fin N) : ∀ (is : List (Fin N)) (p : Point N D),
    is.Pairwise (· < ·) → ∀ j, is.foldl (fun p i => Function.update p i (op (p i) (p k))) p j =
      if j ∈ is then (if k ∈ is ∧ k < j then op (p j) (op (p k) (p k)) else op (p j) (p k)) else p j := by
  intro is
  induction is with
  | nil => intro p _ j; simp
  | cons i is ih =>
    intro p hp j
    have hi := (List.pairwise_cons.1 hp).1
    rw [List.foldl_cons, ih _ (List.pairwise_cons.1 hp).2 j]
    have hni : i ∉ is := fun h => lt_irrefl _ (hi i h)
    by_cases hji : j = i
    · subst hji
      rw [if_neg hni, if_pos (by simp), if_neg]
      · simp
      · rintro ⟨h1, h2⟩
        rcases List.mem_cons.1 h1 with h | h
        · exact lt_irrefl _ (h ▸ h2)
        · exact lt_irrefl _ (h2.trans (hi k h))
    · rw [Function.update_of_ne hji]
      by_cases hk : k = i
      · subst hk
        by_cases hj : j ∈ is
        · have := hi j hj
          simp [hj, hni, this]
        · rw [if_neg hj, if_neg (by simp [hj, hji])]
      · rw [Function.update_of_ne hk]
        simp [hji, hk]

end Geo
