import Verif.Spec.FractionActual
import Verif.Proof.FractionLoop

namespace Fraction
open Cpp Spec

theorem isInt_tdiv {a b : Int} (ha : IsInt a) (h : ¬ (a = INT_MIN ∧ b = -1)) : IsInt (a.tdiv b) := by
  by_cases hm : a = INT_MIN
  · have hb : b ≠ -1 := fun e => h ⟨hm, e⟩
    have h1 : (a.tdiv b).natAbs = a.natAbs / b.natAbs := Int.natAbs_tdiv a b
    by_cases h2 : b = 1
    · rw [h2, Int.tdiv_one]; exact ha
    · have h3 : a.natAbs / b.natAbs ≤ a.natAbs / 2 ∨ b = 0 := by
        by_cases h0 : b = 0
        · exact .inr h0
        · exact .inl (Nat.div_le_div_left (by omega) (by norm_num))
      rcases h3 with h3 | h3
      · unfold IsInt INT_MIN INT_MAX at *
        omega
      · rw [h3, Int.tdiv_zero]; decide
  · have h1 : (a.tdiv b).natAbs ≤ a.natAbs := by
      rw [Int.natAbs_tdiv]; exact Nat.div_le_self _ _
    unfold IsInt INT_MIN INT_MAX at *
    omega

theorem divAssign_right {a b : Frac} (ha : Canonical a) (hb : Canonical b) :
    Right (divAssign a b) (if (val a).den < (val b).den then none
      else some (((val a).num.tdiv (val b).num : Int) / (((val a).den / (val b).den : Nat) : ℚ))) := by
  obtain ⟨na, da⟩ := canonical_num_den ha
  obtain ⟨nb, db⟩ := canonical_num_den hb
  have pa := ha.den_pos
  have pb := hb.den_pos
  have e : (if (val a).den < (val b).den then none
      else some (((val a).num.tdiv (val b).num : Int) / (((val a).den / (val b).den : Nat) : ℚ))) =
      eval .div (a.num.tdiv b.num : Int) (a.den.tdiv b.den : Int) := by
    have hq : a.den.tdiv b.den = (((val a).den / (val b).den : Nat) : Int) := by
      rw [Int.tdiv_eq_ediv_of_nonneg (by omega), ← da, ← db]; simp
    rw [hq, na, nb, eval]
    by_cases hl : (val a).den < (val b).den
    · rw [if_pos hl, if_pos (by rw [Nat.div_eq_of_lt hl]; simp)]
    · rw [if_neg hl, if_neg]
      · rw [Int.cast_natCast]
      · have : 0 < (val a).den / (val b).den := Nat.div_pos (by omega) (val b).den_pos
        exact_mod_cast this.ne'
  rw [e]
  unfold divAssign
  have q2 : MathFns.quot a.den b.den = .ok (a.den.tdiv b.den) := by
    unfold MathFns.quot
    rw [if_neg (by omega), if_neg (fun h => by have := h.2; omega)]
  rw [q2]
  unfold MathFns.quot
  by_cases h1 : b.num = 0
  · rw [if_pos h1]
    exact .of_proper .ub fun f h => by cases h
  · rw [if_neg h1]
    by_cases h2 : a.num = INT_MIN ∧ b.num = -1
    · rw [if_pos h2]
      exact .of_proper .ub fun f h => by cases h
    · rw [if_neg h2]
      simp only [Out.ok_bind]
      rw [out_eta]
      exact mk2_right (isInt_tdiv ha.num_int h2) (isInt_tdiv ha.den_int fun h => by have := h.2; omega)

theorem value_actual (s : Stmt) (st : Vars) (hc : ∀ x, Canonical (st x)) (ht : Typed s) :
    Right (s.value st) (actualValue (fun x => val (st x)) s) := by
  cases s with
  | assign o x y =>
    cases o with
    | div => exact divAssign_right (hc x) (hc y)
    | _ => exact value_right (.assign _ x y) st hc ht (by simp [Plain])
  | left o x n y =>
    cases o with
    | add => exact value_right (.left .add x n y) st hc ht (by simp [Plain])
    | mul => exact value_right (.left .mul x n y) st hc ht (by simp [Plain])
    | sub => exact value_right (.right .sub x y n) st hc ht trivial
    | div =>
      have := value_right (.right .div x y n) st hc ht trivial
      simp only [value, eval, Int.cast_eq_zero] at this
      exact this
  | _ => exact value_right _ st hc ht trivial

/-- what a run of the code means, if it is defined -/
def SimA (σ : Nat → ℚ) (n : Nat) (p : Loop) : Out Vars → Prop
  | .ok st' => (∀ x, Canonical (st' x)) ∧ actualLoop anything n σ p = .ends fun x => val (st' x)
  | .exit => actualLoop anything n σ p = .zero
  | .diverge => actualLoop anything n σ p = .more
  | .ub => True

/-- A run of the code is a run with the actual values, step by step, unless it is undefined. -/
theorem runL_actual (n : Nat) (p : Loop) (st : Vars) (hc : ∀ x, Canonical (st x)) (ht : Every Typed p) :
    SimA (fun x => val (st x)) n p (runL n st p) := by
  induction n generalizing p st with
  | zero => simp [runL, SimA, actualLoop]
  | succ n ih =>
    cases p with
    | stmt s =>
      obtain ⟨r1, r2, r3⟩ := value_actual s st hc ht
      simp only [runL]
      cases hv : s.value st with
      | ub => trivial
      | diverge => exact absurd hv r3
      | exit =>
        have := r2 hv
        simp [SimA, actualLoop, anything, this]
      | ok v =>
        obtain ⟨cv, ev⟩ := r1 v hv
        refine ⟨canonical_update hc _ cv, ?_⟩
        rw [val_update]
        simp [actualLoop, anything, ev]
    | seq p q =>
      have h1 := ih p st hc ht.1
      simp only [runL]
      cases hv : runL n st p with
      | ub => trivial
      | diverge => rw [hv] at h1; simp only [SimA] at h1; simp [SimA, actualLoop, h1]
      | exit => rw [hv] at h1; simp only [SimA] at h1; simp [SimA, actualLoop, h1]
      | ok st' =>
        rw [hv] at h1
        obtain ⟨h2, h3⟩ := h1
        have h4 := ih q st' h2 ht.2
        rw [Out.ok_bind]
        have e : actualLoop anything (n + 1) (fun x => val (st x)) (.seq p q) = actualLoop anything n (fun x => val (st' x)) q := by
          simp [actualLoop, h3]
        cases hq : runL n st' q <;> rw [hq] at h4 <;> simp only [SimA, e] <;> exact h4
    | cond c x y p q =>
      simp only [runL]
      rcases compare_right c (hc x) (hc y) with h | h
      · rw [h]; trivial
      · rw [h, Out.ok_bind]
        cases hh : holds c (val (st x)) (val (st y)) with
        | true =>
          have h4 := ih p st hc ht.1
          have e : actualLoop anything (n + 1) (fun x => val (st x)) (.cond c x y p q) = actualLoop anything n (fun x => val (st x)) p := by
            simp [actualLoop, hh]
          rw [if_pos rfl]
          cases hq : runL n st p <;> rw [hq] at h4 <;> simp only [SimA, e] <;> exact h4
        | false =>
          have h4 := ih q st hc ht.2
          have e : actualLoop anything (n + 1) (fun x => val (st x)) (.cond c x y p q) = actualLoop anything n (fun x => val (st x)) q := by
            simp [actualLoop, hh]
          rw [if_neg (by decide)]
          cases hq : runL n st q <;> rw [hq] at h4 <;> simp only [SimA, e] <;> exact h4
    | loop c x y p =>
      simp only [runL]
      rcases compare_right c (hc x) (hc y) with h | h
      · rw [h]; trivial
      · rw [h, Out.ok_bind]
        cases hh : holds c (val (st x)) (val (st y)) with
        | true =>
          rw [if_pos rfl]
          have h1 := ih p st hc ht
          cases hv : runL n st p with
          | ub => trivial
          | diverge => rw [hv] at h1; simp only [SimA] at h1; simp [SimA, actualLoop, h1, hh]
          | exit => rw [hv] at h1; simp only [SimA] at h1; simp [SimA, actualLoop, h1, hh]
          | ok st' =>
            rw [hv] at h1
            obtain ⟨h2, h3⟩ := h1
            have h4 := ih (.loop c x y p) st' h2 ht
            rw [Out.ok_bind]
            have e : actualLoop anything (n + 1) (fun x => val (st x)) (.loop c x y p) =
                actualLoop anything n (fun x => val (st' x)) (.loop c x y p) := by
              simp [actualLoop, h3, hh]
            cases hq : runL n st' (.loop c x y p) <;> rw [hq] at h4 <;> simp only [SimA, e] <;> exact h4
        | false =>
          rw [if_neg (by decide)]
          exact ⟨hc, by simp [actualLoop, hh]⟩

/-- Programs give the actual values, or end if there are none, or are undefined. -/
theorem run_actual (p : Prog) (st : Vars) (hc : ∀ x, Canonical (st x)) (ht : All Typed p) :
    (∀ st', p.run st = .ok st' → (∀ x, Canonical (st' x)) ∧ actualRun p (fun x => val (st x)) = some fun x => val (st' x)) ∧
    (p.run st = .exit → actualRun p (fun x => val (st x)) = none) ∧ p.run st ≠ .diverge := by
  induction p generalizing st with
  | done =>
    refine ⟨fun st' h => ?_, fun h => ?_, ?_⟩
    · simp only [Prog.run, Out.ok.injEq] at h
      subst h
      exact ⟨hc, rfl⟩
    · simp [Prog.run] at h
    · simp [Prog.run]
  | step s p ih =>
    obtain ⟨r1, r2, r3⟩ := value_actual s st hc ht.1
    simp only [Prog.run, actualRun]
    cases hv : s.value st with
    | ub => exact ⟨fun st' h => by simp at h, fun h => by simp at h, by simp⟩
    | diverge => exact absurd hv r3
    | exit => exact ⟨fun st' h => by simp at h, fun _ => by rw [r2 hv]; rfl, by simp⟩
    | ok v =>
      obtain ⟨cv, ev⟩ := r1 v hv
      rw [ev, Option.bind_some, ← val_update, Out.ok_bind]
      exact ih _ (canonical_update hc _ cv) ht.2
  | branch c x y yes no ih1 ih2 =>
    simp only [Prog.run, actualRun]
    rcases compare_right c (hc x) (hc y) with h | h
    · rw [h]; exact ⟨fun st' h => by simp at h, fun h => by simp at h, by simp⟩
    · rw [h, Out.ok_bind]
      cases hh : holds c (val (st x)) (val (st y)) with
      | true => simpa using ih1 st hc ht.1
      | false => simpa using ih2 st hc ht.2

/-! ### definedness -/

theorem divAssign_within {a b : Frac} (hb : Canonical b) (wa : |a.num| ≤ 32767 ∧ |a.den| ≤ 32767)
    (h0 : b.num ≠ 0) : divAssign a b ≠ .ub := by
  have pb := hb.den_pos
  have q1 : MathFns.quot a.num b.num = .ok (a.num.tdiv b.num) := by
    unfold MathFns.quot
    rw [if_neg h0, if_neg (fun h => by
      have := wa.1; rw [h.1] at this; revert this; decide)]
  have q2 : MathFns.quot a.den b.den = .ok (a.den.tdiv b.den) := by
    unfold MathFns.quot
    rw [if_neg (by omega), if_neg (fun h => by have := h.2; omega)]
  have sm : ∀ x y : Int, |x| ≤ 32767 → Small (x.tdiv y) := by
    intro x y h
    rw [isInt_small_iff, Int.natAbs_tdiv]
    refine (Nat.div_le_self _ _).trans ?_
    rw [Int.abs_eq_natAbs] at h
    omega
  unfold divAssign
  rw [q1, q2]
  simp only [Out.ok_bind]
  rw [out_eta]
  exact mk2_small (sm _ _ wa.1) (sm _ _ wa.2)

theorem value_actualFits (s : Stmt) (st : Vars) (hc : ∀ x, Canonical (st x))
    (hw : ∀ x, Within 32767 (val (st x))) (hk : Consts 32767 s) (hd : divides (fun x => val (st x)) s = true) : s.value st ≠ .ub := by
  cases s with
  | assign o x y =>
    cases o with
    | div =>
      refine divAssign_within (hc y) (within_bounds (hc x) (hw x)) fun h => ?_
      simp only [divides, decide_eq_true_iff] at hd
      exact hd (by unfold val; rw [h]; simp)
    | _ => exact value_within (.assign _ x y) st hc (by simp [Plain]) hw hk
  | left o x n y =>
    cases o with
    | add => exact value_within (.left .add x n y) st hc (by simp [Plain]) hw hk
    | mul => exact value_within (.left .mul x n y) st hc (by simp [Plain]) hw hk
    | sub => exact value_within (.right .sub x y n) st hc trivial hw hk
    | div => exact value_within (.right .div x y n) st hc trivial hw hk
  | _ => exact value_within _ st hc trivial hw hk

/-- what a run with the actual values within 32767 means for the code -/
def FollowsA (n : Nat) (st : Vars) (p : Loop) : Res → Prop
  | .ends σ => ∃ st', runL n st p = .ok st' ∧ (∀ x, Canonical (st' x)) ∧ (∀ x, Within 32767 (val (st' x))) ∧ σ = fun x => val (st' x)
  | .zero => runL n st p = .exit
  | .more => runL n st p = .diverge
  | .large => True

theorem runL_actualFits (n : Nat) (p : Loop) (st : Vars) (hc : ∀ x, Canonical (st x)) (hw : ∀ x, Within 32767 (val (st x))) : FollowsA n st p (actualLoop (actualFits 32767) n (fun x => val (st x)) p) := by
  induction n generalizing p st with
  | zero => simp [runL, FollowsA, actualLoop]
  | succ n ih =>
    cases p with
    | stmt s =>
      simp only [actualLoop]
      by_cases hf : actualFits 32767 (fun x => val (st x)) s = true
      · rw [if_pos hf]
        simp only [actualFits, Bool.and_eq_true, decide_eq_true_iff] at hf
        obtain ⟨r1, r2, r3⟩ := value_actual s st hc (typed_of_consts hf.1.1)
        have r4 := value_actualFits s st hc hw hf.1.1 hf.1.2
        cases hv : s.value st with
        | ub => exact absurd hv r4
        | diverge => exact absurd hv r3
        | exit => rw [r2 hv]; simp [FollowsA, runL, hv]
        | ok v =>
          obtain ⟨cv, ev⟩ := r1 v hv
          rw [ev] at hf ⊢
          have wv : Within 32767 (val v) := by simpa using hf.2
          refine ⟨Function.update st s.target v, by simp [runL, hv], canonical_update hc _ cv, fun y => ?_, (val_update _ _ _).symm⟩
          by_cases h : y = s.target
          · subst h; simpa using wv
          · rw [Function.update_of_ne h]; exact hw y
      · rw [if_neg hf]; trivial
    | seq p q =>
      have h1 := ih p st hc hw
      simp only [actualLoop]
      cases hv : actualLoop (actualFits 32767) n (fun x => val (st x)) p with
      | large => trivial
      | more => rw [hv] at h1; simp only [FollowsA] at h1; simp [FollowsA, runL, h1]
      | zero => rw [hv] at h1; simp only [FollowsA] at h1; simp [FollowsA, runL, h1]
      | ends σ =>
        rw [hv] at h1
        obtain ⟨st', e, h2, h3, rfl⟩ := h1
        have h4 := ih q st' h2 h3
        have e' : runL (n + 1) st (.seq p q) = runL n st' q := by simp [runL, e]
        cases hq : actualLoop (actualFits 32767) n (fun x => val (st' x)) q <;> rw [hq] at h4 <;> simp only [FollowsA, e', hq] <;> exact h4
    | cond c x y p q =>
      have h := compare_within c (hc x) (hc y) (within_bounds (hc x) (hw x)) (within_bounds (hc y) (hw y))
      simp only [actualLoop]
      cases hh : holds c (val (st x)) (val (st y)) with
      | true =>
        rw [if_pos rfl]
        have h4 := ih p st hc hw
        have e' : runL (n + 1) st (.cond c x y p q) = runL n st p := by simp [runL, h, hh]
        cases hq : actualLoop (actualFits 32767) n (fun x => val (st x)) p <;> rw [hq] at h4 <;> simp only [FollowsA, e'] <;> exact h4
      | false =>
        rw [if_neg (by decide)]
        have h4 := ih q st hc hw
        have e' : runL (n + 1) st (.cond c x y p q) = runL n st q := by simp [runL, h, hh]
        cases hq : actualLoop (actualFits 32767) n (fun x => val (st x)) q <;> rw [hq] at h4 <;> simp only [FollowsA, e'] <;> exact h4
    | loop c x y p =>
      have h := compare_within c (hc x) (hc y) (within_bounds (hc x) (hw x)) (within_bounds (hc y) (hw y))
      simp only [actualLoop]
      cases hh : holds c (val (st x)) (val (st y)) with
      | true =>
        rw [if_pos rfl]
        have h1 := ih p st hc hw
        cases hv : actualLoop (actualFits 32767) n (fun x => val (st x)) p with
        | large => trivial
        | more => rw [hv] at h1; simp only [FollowsA] at h1; simp [FollowsA, runL, h1, h, hh]
        | zero => rw [hv] at h1; simp only [FollowsA] at h1; simp [FollowsA, runL, h1, h, hh]
        | ends σ =>
          rw [hv] at h1
          obtain ⟨st', e, h2, h3, rfl⟩ := h1
          have h4 := ih (.loop c x y p) st' h2 h3
          have e' : runL (n + 1) st (.loop c x y p) = runL n st' (.loop c x y p) := by simp [runL, e, h, hh]
          cases hq : actualLoop (actualFits 32767) n (fun x => val (st' x)) (.loop c x y p) <;> rw [hq] at h4 <;> simp only [FollowsA, e', hq] <;>
            exact h4
      | false =>
        rw [if_neg (by decide)]
        exact ⟨st, by simp [runL, h, hh], hc, hw, rfl⟩

end Fraction
