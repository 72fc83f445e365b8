import Verif.Spec.FractionLoop
import Verif.Proof.FractionProg

namespace Fraction
open Cpp Spec

/-- what a run of the code means, if it is defined -/
def Sim (σ : Nat → ℚ) (admit : (Nat → ℚ) → Stmt → Bool) (n : Nat) (p : Loop) : Out Vars → Prop
  | .ok st' => (∀ x, Canonical (st' x)) ∧ runR admit n σ p = .ends fun x => val (st' x)
  | .exit => runR admit n σ p = .zero
  | .diverge => runR admit n σ p = .more
  | .ub => True

/-- A run of the code is a run over the rational numbers, step by step, unless it is undefined. -/
theorem runL_right (n : Nat) (p : Loop) (st : Vars) (hc : ∀ x, Canonical (st x)) (ht : Every Typed p) (hp : Every Plain p) :
    Sim (fun x => val (st x)) anything n p (runL n st p) := by
  induction n generalizing p st with
  | zero => simp [runL, Sim, runR]
  | succ n ih =>
    cases p with
    | stmt s =>
      obtain ⟨r1, r2, r3⟩ := value_right s st hc ht hp
      simp only [runL]
      cases hv : s.value st with
      | ub => trivial
      | diverge => exact absurd hv r3
      | exit =>
        have := r2 hv
        simp [Sim, runR, anything, this]
      | ok v =>
        obtain ⟨cv, ev⟩ := r1 v hv
        refine ⟨canonical_update hc _ cv, ?_⟩
        rw [val_update]
        simp [runR, anything, ev]
    | seq p q =>
      have h1 := ih p st hc ht.1 hp.1
      simp only [runL]
      cases hv : runL n st p with
      | ub => trivial
      | diverge => rw [hv] at h1; simp only [Sim] at h1; simp [Sim, runR, h1]
      | exit => rw [hv] at h1; simp only [Sim] at h1; simp [Sim, runR, h1]
      | ok st' =>
        rw [hv] at h1
        obtain ⟨h2, h3⟩ := h1
        have h4 := ih q st' h2 ht.2 hp.2
        rw [Out.ok_bind]
        have e : runR anything (n + 1) (fun x => val (st x)) (.seq p q) = runR anything n (fun x => val (st' x)) q := by
          simp [runR, h3]
        cases hq : runL n st' q <;> rw [hq] at h4 <;> simp only [Sim, e] <;> exact h4
    | cond c x y p q =>
      simp only [runL]
      rcases compare_right c (hc x) (hc y) with h | h
      · rw [h]; trivial
      · rw [h, Out.ok_bind]
        cases hh : holds c (val (st x)) (val (st y)) with
        | true =>
          have h4 := ih p st hc ht.1 hp.1
          have e : runR anything (n + 1) (fun x => val (st x)) (.cond c x y p q) = runR anything n (fun x => val (st x)) p := by
            simp [runR, hh]
          rw [if_pos rfl]
          cases hq : runL n st p <;> rw [hq] at h4 <;> simp only [Sim, e] <;> exact h4
        | false =>
          have h4 := ih q st hc ht.2 hp.2
          have e : runR anything (n + 1) (fun x => val (st x)) (.cond c x y p q) = runR anything n (fun x => val (st x)) q := by
            simp [runR, hh]
          rw [if_neg (by decide)]
          cases hq : runL n st q <;> rw [hq] at h4 <;> simp only [Sim, e] <;> exact h4
    | loop c x y p =>
      simp only [runL]
      rcases compare_right c (hc x) (hc y) with h | h
      · rw [h]; trivial
      · rw [h, Out.ok_bind]
        cases hh : holds c (val (st x)) (val (st y)) with
        | true =>
          rw [if_pos rfl]
          have h1 := ih p st hc ht hp
          cases hv : runL n st p with
          | ub => trivial
          | diverge => rw [hv] at h1; simp only [Sim] at h1; simp [Sim, runR, h1, hh]
          | exit => rw [hv] at h1; simp only [Sim] at h1; simp [Sim, runR, h1, hh]
          | ok st' =>
            rw [hv] at h1
            obtain ⟨h2, h3⟩ := h1
            have h4 := ih (.loop c x y p) st' h2 ht hp
            rw [Out.ok_bind]
            have e : runR anything (n + 1) (fun x => val (st x)) (.loop c x y p) =
                runR anything n (fun x => val (st' x)) (.loop c x y p) := by
              simp [runR, h3, hh]
            cases hq : runL n st' (.loop c x y p) <;> rw [hq] at h4 <;> simp only [Sim, e] <;> exact h4
        | false =>
          rw [if_neg (by decide)]
          exact ⟨hc, by simp [runR, hh]⟩

/-- what a run over the rational numbers within 32767 means for the code -/
def Follows (n : Nat) (st : Vars) (p : Loop) : Res → Prop
  | .ends σ => ∃ st', runL n st p = .ok st' ∧ (∀ x, Canonical (st' x)) ∧ (∀ x, Within 32767 (val (st' x))) ∧ σ = fun x => val (st' x)
  | .zero => runL n st p = .exit
  | .more => runL n st p = .diverge
  | .large => True

theorem runL_within (n : Nat) (p : Loop) (st : Vars) (hc : ∀ x, Canonical (st x)) (hw : ∀ x, Within 32767 (val (st x)))
    (hp : Every Plain p) : Follows n st p (runR (fitsIn 32767) n (fun x => val (st x)) p) := by
  induction n generalizing p st with
  | zero => simp [runL, Follows, runR]
  | succ n ih =>
    cases p with
    | stmt s =>
      simp only [runR]
      by_cases hf : fitsIn 32767 (fun x => val (st x)) s = true
      · rw [if_pos hf]
        simp only [fitsIn, Bool.and_eq_true, decide_eq_true_iff] at hf
        obtain ⟨r1, r2, r3⟩ := value_right s st hc (typed_of_consts hf.1) hp
        have r4 := value_within s st hc hp hw hf.1
        cases hv : s.value st with
        | ub => exact absurd hv r4
        | diverge => exact absurd hv r3
        | exit => rw [r2 hv]; simp [Follows, runL, hv]
        | ok v =>
          obtain ⟨cv, ev⟩ := r1 v hv
          rw [ev] at hf ⊢
          have wv : Within 32767 (val v) := by simpa using hf.2
          refine ⟨Function.update st s.target v, by simp [runL, hv], canonical_update hc _ cv, fun y => ?_, (val_update _ _ _).symm⟩
          by_cases h : y = s.target
          · subst h; simpa using wv
          · rw [Function.update_of_ne h]; exact hw y
      · rw [if_neg hf]; trivial
    | seq p q =>
      have h1 := ih p st hc hw hp.1
      simp only [runR]
      cases hv : runR (fitsIn 32767) n (fun x => val (st x)) p with
      | large => trivial
      | more => rw [hv] at h1; simp only [Follows] at h1; simp [Follows, runL, h1]
      | zero => rw [hv] at h1; simp only [Follows] at h1; simp [Follows, runL, h1]
      | ends σ =>
        rw [hv] at h1
        obtain ⟨st', e, h2, h3, rfl⟩ := h1
        have h4 := ih q st' h2 h3 hp.2
        have e' : runL (n + 1) st (.seq p q) = runL n st' q := by simp [runL, e]
        cases hq : runR (fitsIn 32767) n (fun x => val (st' x)) q <;> rw [hq] at h4 <;> simp only [Follows, e', hq] <;> exact h4
    | cond c x y p q =>
      have h := compare_within c (hc x) (hc y) (within_bounds (hc x) (hw x)) (within_bounds (hc y) (hw y))
      simp only [runR]
      cases hh : holds c (val (st x)) (val (st y)) with
      | true =>
        rw [if_pos rfl]
        have h4 := ih p st hc hw hp.1
        have e' : runL (n + 1) st (.cond c x y p q) = runL n st p := by simp [runL, h, hh]
        cases hq : runR (fitsIn 32767) n (fun x => val (st x)) p <;> rw [hq] at h4 <;> simp only [Follows, e'] <;> exact h4
      | false =>
        rw [if_neg (by decide)]
        have h4 := ih q st hc hw hp.2
        have e' : runL (n + 1) st (.cond c x y p q) = runL n st q := by simp [runL, h, hh]
        cases hq : runR (fitsIn 32767) n (fun x => val (st x)) q <;> rw [hq] at h4 <;> simp only [Follows, e'] <;> exact h4
    | loop c x y p =>
      have h := compare_within c (hc x) (hc y) (within_bounds (hc x) (hw x)) (within_bounds (hc y) (hw y))
      simp only [runR]
      cases hh : holds c (val (st x)) (val (st y)) with
      | true =>
        rw [if_pos rfl]
        have h1 := ih p st hc hw hp
        cases hv : runR (fitsIn 32767) n (fun x => val (st x)) p with
        | large => trivial
        | more => rw [hv] at h1; simp only [Follows] at h1; simp [Follows, runL, h1, h, hh]
        | zero => rw [hv] at h1; simp only [Follows] at h1; simp [Follows, runL, h1, h, hh]
        | ends σ =>
          rw [hv] at h1
          obtain ⟨st', e, h2, h3, rfl⟩ := h1
          have h4 := ih (.loop c x y p) st' h2 h3 hp
          have e' : runL (n + 1) st (.loop c x y p) = runL n st' (.loop c x y p) := by simp [runL, e, h, hh]
          cases hq : runR (fitsIn 32767) n (fun x => val (st' x)) (.loop c x y p) <;> rw [hq] at h4 <;> simp only [Follows, e', hq] <;>
            exact h4
      | false =>
        rw [if_neg (by decide)]
        exact ⟨st, by simp [runL, h, hh], hc, hw, rfl⟩

/-! ### a sum that telescopes -/

theorem frac_unique {a b : Frac} (ha : Canonical a) (hb : Canonical b) (h : val a = val b) : a = b := by
  obtain ⟨h1, h2⟩ := canonical_num_den ha
  obtain ⟨h3, h4⟩ := canonical_num_den hb
  rw [h] at h1 h2
  cases a; cases b
  simp only at h1 h2 h3 h4
  rw [← h1, ← h2, h3, h4]

theorem binary_eq (o : Op) {a b c : Frac} (ha : Canonical a) (hb : Canonical b) (hc : Canonical c)
    (h : eval o (val a) (val b) = some (val c)) (hd : binary o a b ≠ .ub) : binary o a b = .ok c := by
  obtain ⟨r1, r2, r3⟩ := binary_right o ha hb
  cases hv : binary o a b with
  | ub => exact absurd hv hd
  | diverge => exact absurd hv r3
  | exit => rw [r2 hv] at h; simp at h
  | ok v =>
    obtain ⟨cv, ev⟩ := r1 v hv
    rw [ev] at h
    injection h with h
    rw [frac_unique cv hc h]

/-- the body of the loop of `telescope` -/
def telescopeBody : Loop :=
  .seq (.stmt (.right .add 4 1 1)) (.seq (.stmt (.bin .mul 4 4 1)) (.seq (.stmt (.bin .div 4 3 4))
      (.seq (.stmt (.assign .add 0 4)) (.stmt (.right .add 1 1 1)))))

theorem canonical_small {n d : Int} (h1 : Small n) (h2 : Small d) (h3 : 0 < d) (h4 : Int.gcd n d = 1) : Canonical ⟨n, d⟩ :=
  ⟨small_isInt h1, small_isInt h2, h3, h4⟩

theorem cube_le {i : Int} (h0 : 1 ≤ i) (hi : i ≤ 1289) : i * (i * (i + 1)) ≤ 2143362090 := by
  nlinarith [mul_nonneg (by omega : (0:Int) ≤ i - 1) (by omega : (0:Int) ≤ 1289 - i),
    mul_nonneg (mul_nonneg (by omega : (0:Int) ≤ i - 1) (by omega : (0:Int) ≤ 1289 - i)) (by omega : (0:Int) ≤ i)]

/-- the three statements before the sum -/
theorem term_steps {i : Int} (h0 : 1 ≤ i) (hi : i ≤ 30000) :
    binary .add ⟨i, 1⟩ ⟨1, 1⟩ = .ok ⟨i + 1, 1⟩ ∧ binary .mul ⟨i + 1, 1⟩ ⟨i, 1⟩ = .ok ⟨(i + 1) * i, 1⟩ ∧
    binary .div ⟨1, 1⟩ ⟨(i + 1) * i, 1⟩ = .ok ⟨1, (i + 1) * i⟩ := by
  have hb : (i + 1) * i ≤ 30001 * 30000 := mul_le_mul (by omega) (by omega) (by omega) (by norm_num)
  have hb0 : 0 < (i + 1) * i := mul_pos (by omega) (by omega)
  have c1 : ∀ n : Int, -INT_MAX ≤ n → n ≤ INT_MAX → Canonical ⟨n, 1⟩ := fun n h h' =>
    canonical_small ⟨h, h'⟩ (by decide) (by decide) (by simp)
  have s : ∀ n : Int, |n| ≤ 2147483647 → Small n := fun n h => small_of_abs h
  unfold INT_MAX at c1
  have ci := c1 i (by omega) (by omega)
  have ci1 := c1 (i + 1) (by omega) (by omega)
  have co := c1 1 (by omega) (by omega)
  have cp := c1 ((i + 1) * i) (by omega) (by omega)
  have cq : Canonical ⟨1, (i + 1) * i⟩ := canonical_small (by decide) (s _ (by rw [abs_of_pos hb0]; omega)) hb0 (by simp)
  refine ⟨binary_eq .add ci co ci1 (by simp [eval, val]) (binary_within .add ci co ⟨?_, show |(1 : Int)| ≤ 32767 by decide⟩ (by decide)),
    binary_eq .mul ci1 ci cp (by simp [eval, val]) (binary_within .mul ci1 ci ⟨?_, show |(1 : Int)| ≤ 32767 by decide⟩ ⟨?_, show |(1 : Int)| ≤ 32767 by decide⟩),
    binary_eq .div co cp cq ?_ ?_⟩
  · show |i| ≤ 32767; rw [abs_le]; omega
  · show |i + 1| ≤ 32767; rw [abs_le]; omega
  · show |i| ≤ 32767; rw [abs_le]; omega
  · have h1 : ((i : ℚ) + 1) ≠ 0 := by exact_mod_cast (by omega : i + 1 ≠ 0)
    have h2 : (i : ℚ) ≠ 0 := by exact_mod_cast (by omega : i ≠ 0)
    simp [eval, val, h1, h2]
  · obtain ⟨-, -, -, k4⟩ := C15_defined ⟨1, 1⟩ ⟨(i + 1) * i, 1⟩ co cp (show Small (1 * 1) by decide)
      (s _ (by show |1 * ((i + 1) * i)| ≤ _; rw [one_mul, abs_of_pos hb0]; omega)) (show Small (1 * 1) by decide)
    obtain ⟨c, e⟩ := k4 (by show (i + 1) * i ≠ 0; omega)
    show div _ _ ≠ .ub
    rw [e]; simp

theorem sum_step {i : Int} (h0 : 1 ≤ i) (hi : i ≤ 1289) : binary .add ⟨i - 1, i⟩ ⟨1, (i + 1) * i⟩ = .ok ⟨i, i + 1⟩ := by
  have hb := cube_le h0 hi
  have hb0 : 0 < (i + 1) * i := mul_pos (by omega) (by omega)
  have hb1 : (i + 1) * i ≤ 30001 * 30000 := mul_le_mul (by omega) (by omega) (by omega) (by norm_num)
  have s : ∀ n : Int, |n| ≤ 2147483647 → Small n := fun n h => small_of_abs h
  have c0 : Canonical ⟨i - 1, i⟩ := canonical_small (s _ (by rw [abs_le]; omega)) (s _ (by rw [abs_le]; omega)) (by omega) (by
    have : i - 1 = i * 1 + (-1) := by ring
    rw [this]; simp)
  have c1 : Canonical ⟨1, (i + 1) * i⟩ := canonical_small (by decide) (s _ (by rw [abs_of_pos hb0]; omega)) hb0 (by simp)
  have c2 : Canonical ⟨i, i + 1⟩ := canonical_small (s _ (by rw [abs_le]; omega)) (s _ (by rw [abs_le]; omega)) (by omega) (by simp)
  have h1 : ((i : ℚ) + 1) ≠ 0 := by exact_mod_cast (by omega : i + 1 ≠ 0)
  have h2 : (i : ℚ) ≠ 0 := by exact_mod_cast (by omega : i ≠ 0)
  refine binary_eq .add c0 c1 c2 ?_ ?_
  · simp only [eval, val, Option.some.injEq]
    push_cast
    field_simp
    ring
  · have e1 : (i - 1) * ((i + 1) * i) = i * (i * (i + 1)) - i * (i + 1) := by ring
    have e2 : i * ((i + 1) * i) = i * (i * (i + 1)) := by ring
    have e3 : (i + 1) * i = i * (i + 1) := by ring
    have e4 : 0 ≤ (i - 1) * ((i + 1) * i) := mul_nonneg (by omega) hb0.le
    have e5 : i ≤ i * (i + 1) := by nlinarith
    obtain ⟨k1, -⟩ := C15_defined ⟨i - 1, i⟩ ⟨1, (i + 1) * i⟩ c0 c1
      (s _ (by show |(i - 1) * ((i + 1) * i)| ≤ _; rw [abs_le]; omega))
      (s _ (by show |i * 1| ≤ _; rw [abs_le]; omega))
      (s _ (by show |i * ((i + 1) * i)| ≤ _; rw [abs_le]; omega))
    obtain ⟨c, e⟩ := k1 (s _ (by show |(i - 1) * ((i + 1) * i) + i * 1| ≤ _; rw [abs_le]; omega))
    show add _ _ ≠ .ub
    rw [e]; simp

theorem sum_step_ub : binary .add ⟨1289, 1290⟩ ⟨1, (1290 + 1) * 1290⟩ = .ub := by
  have : (match binary .add ⟨1289, 1290⟩ ⟨1, (1290 + 1) * 1290⟩ with | .ub => true | _ => false) = true := by decide +kernel
  cases h : binary .add ⟨1289, 1290⟩ ⟨1, (1290 + 1) * 1290⟩ <;> rw [h] at this <;> simp_all

/-- the variables before the `i`-th round -/
def Round (K i : Int) (st : Vars) : Prop := st 0 = ⟨i - 1, i⟩ ∧ st 1 = ⟨i, 1⟩ ∧ st 2 = ⟨K, 1⟩ ∧ st 3 = ⟨1, 1⟩

theorem body_step {K i : Int} (h0 : 1 ≤ i) (hi : i ≤ 1289) {st : Vars} (h : Round K i st) (n : Nat) :
    ∃ st', runL (n + 5) st telescopeBody = .ok st' ∧ Round K (i + 1) st' := by
  obtain ⟨a1, a2, a3, a4⟩ := h
  obtain ⟨t1, t2, t3⟩ := term_steps h0 (by omega)
  have t4 := sum_step h0 hi
  have t1' : withInt .add ⟨i, 1⟩ 1 = .ok ⟨i + 1, 1⟩ := by rw [withInt_eq]; exact t1
  refine ⟨Function.update (Function.update (Function.update (Function.update (Function.update st 4 ⟨i + 1, 1⟩) 4 ⟨(i + 1) * i, 1⟩)
    4 ⟨1, (i + 1) * i⟩) 0 ⟨i, i + 1⟩) 1 ⟨i + 1, 1⟩, ?_, ?_⟩
  · have t5 : compound .add ⟨i - 1, i⟩ ⟨1, (i + 1) * i⟩ = .ok ⟨i, i + 1⟩ := by rw [compound_eq _ _ _ (by decide)]; exact t4
    simp [telescopeBody, runL, Stmt.value, Stmt.target, Function.update, a1, a2, a4, t1', t2, t3, t5]
  · refine ⟨?_, ?_, ?_, ?_⟩ <;> simp [Function.update, a3, a4]

theorem body_ub {K i : Int} (h0 : 1 ≤ i) (hi : i ≤ 30000) (t4 : binary .add ⟨i - 1, i⟩ ⟨1, (i + 1) * i⟩ = .ub) {st : Vars}
    (h : Round K i st) (n : Nat) : runL (n + 5) st telescopeBody = .ub := by
  obtain ⟨a1, a2, a3, a4⟩ := h
  obtain ⟨t1, t2, t3⟩ := term_steps h0 hi
  have t1' : withInt .add ⟨i, 1⟩ 1 = .ok ⟨i + 1, 1⟩ := by rw [withInt_eq]; exact t1
  have t5 : compound .add ⟨i - 1, i⟩ ⟨1, (i + 1) * i⟩ = .ub := by rw [compound_eq _ _ _ (by decide)]; exact t4
  simp [telescopeBody, runL, Stmt.value, Stmt.target, Function.update, a1, a2, a4, t1', t2, t3, t5]

theorem le_ints {i K : Int} (hi : IsInt i) (hK : IsInt K) : compare .le ⟨i, 1⟩ ⟨K, 1⟩ = .ok (decide (i ≤ K)) := by
  have := (C16_order ⟨i, 1⟩ ⟨K, 1⟩ (ofInt_canonical i hi) (ofInt_canonical K hK) (by simpa using hi) (by simpa using hK)).2.1
  show le _ _ = _
  rw [this]
  congr 1
  rw [decide_eq_decide, val_ofInt, val_ofInt]
  exact_mod_cast Iff.rfl

theorem loop_ends {K : Int} (hK : K ≤ 1289) (m : Nat) {i : Int} (h0 : 1 ≤ i) (hm : K + 1 - i = m) {st : Vars}
    (h : Round K i st) (n : Nat) : ∃ st', runL (n + m + 5 + 1) st (.loop .le 1 2 telescopeBody) = .ok st' ∧ Round K (K + 1) st' := by
  induction m generalizing i st with
  | zero =>
    have hi : i = K + 1 := by omega
    subst hi
    refine ⟨st, ?_, h⟩
    have c := le_ints (i := K + 1) (K := K) (by unfold IsInt INT_MIN INT_MAX; omega) (by unfold IsInt INT_MIN INT_MAX; omega)
    simp [runL, h.2.1, h.2.2.1, c]
  | succ m ih =>
    obtain ⟨st1, e1, h1⟩ := body_step (i := i) h0 (by omega) h (n + (m + 1))
    obtain ⟨st2, e2, h2⟩ := ih (i := i + 1) (by omega) (by omega) h1
    refine ⟨st2, ?_, h2⟩
    have c := le_ints (i := i) (K := K) (by unfold IsInt INT_MIN INT_MAX; omega) (by unfold IsInt INT_MIN INT_MAX; omega)
    have hle : i ≤ K := by omega
    rw [runL, h.2.1, h.2.2.1, c]
    simp only [hle, decide_true, Out.ok_bind, if_true]
    rw [e1, Out.ok_bind]
    have : n + (m + 1) + 5 = n + m + 5 + 1 := by omega
    rw [this]
    exact e2

theorem loop_ub {K : Int} (hK : 1290 ≤ K) (hK' : IsInt K) (m : Nat) {i : Int} (h0 : 1 ≤ i) (hm : 1290 - i = m) {st : Vars}
    (h : Round K i st) (n : Nat) : runL (n + m + 5 + 1) st (.loop .le 1 2 telescopeBody) = .ub := by
  induction m generalizing i st with
  | zero =>
    have hi : i = 1290 := by omega
    subst hi
    have c := le_ints (i := 1290) (K := K) (by decide) hK'
    rw [runL, h.2.1, h.2.2.1, c]
    simp only [hK, decide_true, Out.ok_bind, if_true]
    rw [body_ub (by norm_num) (by norm_num) sum_step_ub h]
    rfl
  | succ m ih =>
    obtain ⟨st1, e1, h1⟩ := body_step (i := i) h0 (by omega) h (n + (m + 1))
    have e2 := ih (i := i + 1) (by omega) (by omega) h1
    have c := le_ints (i := i) (K := K) (by unfold IsInt INT_MIN INT_MAX; omega) hK'
    have hle : i ≤ K := by omega
    rw [runL, h.2.1, h.2.2.1, c]
    simp only [hle, decide_true, Out.ok_bind, if_true]
    rw [e1, Out.ok_bind]
    have : n + (m + 1) + 5 = n + m + 5 + 1 := by omega
    rw [this]
    exact e2

theorem telescope_start (K : Int) (n : Nat) :
    ∃ st, Round K 1 st ∧ runL (n + 4) (fun _ => ⟨0, 1⟩) (telescope K) = runL (n + 1) st (.loop .le 1 2 telescopeBody) := by
  refine ⟨Function.update (Function.update (Function.update (fun _ => ⟨0, 1⟩) 1 ⟨1, 1⟩) 2 ⟨K, 1⟩) 3 ⟨1, 1⟩, ?_, ?_⟩
  · refine ⟨?_, ?_, ?_, ?_⟩ <;> simp [Function.update]
  · have h : ∀ k, runL (n + 4) (fun _ => ⟨0, 1⟩) (.seq (.stmt (.declInt 1 1)) (.seq (.stmt (.declInt 2 K)) (.seq (.stmt (.declInt 3 1))
      k))) = runL (n + 1) (Function.update (Function.update (Function.update (fun _ => ⟨0, 1⟩) 1 ⟨1, 1⟩) 2 ⟨K, 1⟩) 3 ⟨1, 1⟩) k := by
      intro k
      simp [runL, Stmt.value, Stmt.target, ofInt_eq]
    exact h _

/-! ### the same over the rational numbers -/

theorem within_canonical {B : Nat} {n d : Int} (hc : Canonical ⟨n, d⟩) (h1 : |n| ≤ B) (h2 : |d| ≤ B) : Within B ((n : ℚ) / d) := by
  obtain ⟨e1, e2⟩ := canonical_num_den hc
  have e1' : ((n : ℚ) / d).num = n := e1
  have e2' : (((n : ℚ) / d).den : Int) = d := e2
  refine ⟨?_, ?_⟩
  · rw [e1']; rw [Int.abs_eq_natAbs] at h1; exact_mod_cast h1
  · have : (((n : ℚ) / d).den : Int) ≤ B := by rw [e2']; exact (le_abs_self d).trans h2
    exact_mod_cast this

theorem within_int {B : Nat} (hB : 1 ≤ B) {n : Int} (h : |n| ≤ B) : Within B (n : ℚ) := by
  refine ⟨?_, ?_⟩
  · rw [Rat.num_intCast]; rw [Int.abs_eq_natAbs] at h; exact_mod_cast h
  · rw [Rat.den_intCast]; exact hB

/-- the variables before the `i`-th round -/
def RoundQ (K i : Int) (σ : Nat → ℚ) : Prop := σ 0 = ((i - 1 : Int) : ℚ) / (i : Int) ∧ σ 1 = i ∧ σ 2 = K ∧ σ 3 = 1

theorem bodyR_step {K i : Int} (h0 : 1 ≤ i) (hi : i ≤ 46339) {σ : Nat → ℚ} (h : RoundQ K i σ) (n : Nat) :
    ∃ σ', runR (fitsIn 2147483647) (n + 5) σ telescopeBody = .ends σ' ∧ RoundQ K (i + 1) σ' := by
  obtain ⟨a1, a2, a3, a4⟩ := h
  have hb1 : (i + 1) * i ≤ 46340 * 46339 := mul_le_mul (by omega) (by omega) (by omega) (by norm_num)
  have hb0 : 0 < (i + 1) * i := mul_pos (by omega) (by omega)
  have h1 : ((i : ℚ) + 1) ≠ 0 := by exact_mod_cast (by omega : i + 1 ≠ 0)
  have h2 : (i : ℚ) ≠ 0 := by exact_mod_cast (by omega : i ≠ 0)
  have w1 : Within 2147483647 ((i : ℚ) + 1) := by
    have := within_int (B := 2147483647) (by norm_num) (n := i + 1) (by rw [abs_le]; omega)
    exact_mod_cast this
  have w2 : Within 2147483647 (((i : ℚ) + 1) * i) := by
    have := within_int (B := 2147483647) (by norm_num) (n := (i + 1) * i) (by rw [abs_le]; omega)
    exact_mod_cast this
  have s : ∀ n : Int, |n| ≤ 2147483647 → Small n := fun n h => small_of_abs h
  have w3 : Within 2147483647 ((1 : ℚ) / (((i : ℚ) + 1) * i)) := by
    have := within_canonical (B := 2147483647) (n := 1) (d := (i + 1) * i)
      (canonical_small (by decide) (s _ (by rw [abs_of_pos hb0]; omega)) hb0 (by simp)) (by decide) (by rw [abs_of_pos hb0]; omega)
    exact_mod_cast this
  have w4 : Within 2147483647 ((i : ℚ) / ((i : ℚ) + 1)) := by
    have := within_canonical (B := 2147483647) (n := i) (d := i + 1)
      (canonical_small (s _ (by rw [abs_le]; omega)) (s _ (by rw [abs_le]; omega)) (by omega) (by simp))
      (by rw [abs_le]; omega) (by rw [abs_le]; omega)
    exact_mod_cast this
  have e4 : ((i - 1 : Int) : ℚ) / (i : Int) + (1 : ℚ) / (((i : ℚ) + 1) * i) = (i : ℚ) / ((i : ℚ) + 1) := by
    push_cast
    field_simp
    ring
  have hz : ((i : ℚ) + 1) * i ≠ 0 := mul_ne_zero h1 h2
  refine ⟨Function.update (Function.update (Function.update (Function.update (Function.update σ 4 (i + 1)) 4 ((i + 1) * i))
    4 (1 / ((i + 1) * i))) 0 (i / (i + 1))) 1 (i + 1), ?_, ?_⟩
  · rw [← a1] at e4
    have f1 : fitsIn 2147483647 σ (.right .add 4 1 1) = true := by
      simp [fitsIn, value, eval, a2, w1, Consts]
    have v1 : value σ (.right .add 4 1 1) = some ((i : ℚ) + 1) := by simp [value, eval, a2]
    obtain ⟨σ1, d1⟩ : ∃ σ1, σ1 = Function.update σ 4 ((i : ℚ) + 1) := ⟨_, rfl⟩
    have f2 : fitsIn 2147483647 σ1 (.bin .mul 4 4 1) = true := by
      simp [fitsIn, value, eval, a2, w2, Consts, d1]
      rfl
    have v2 : value σ1 (.bin .mul 4 4 1) = some (((i : ℚ) + 1) * i) := by simp [value, eval, a2, d1]
    obtain ⟨σ2, d2⟩ : ∃ σ2, σ2 = Function.update σ1 4 (((i : ℚ) + 1) * i) := ⟨_, rfl⟩
    have v3 : value σ2 (.bin .div 4 3 4) = some (1 / (((i : ℚ) + 1) * i)) := by
      simp only [value, eval, d2, d1]
      simp [a4, h1, h2]
    have f3 : fitsIn 2147483647 σ2 (.bin .div 4 3 4) = true := by
      simp only [fitsIn, v3, w3, Consts]
      decide
    obtain ⟨σ3, d3⟩ : ∃ σ3, σ3 = Function.update σ2 4 (1 / (((i : ℚ) + 1) * i)) := ⟨_, rfl⟩
    have v4 : value σ3 (.assign .add 0 4) = some ((i : ℚ) / (i + 1)) := by
      simp only [value, eval, d3, d2, d1]
      simpa using e4
    have f4 : fitsIn 2147483647 σ3 (.assign .add 0 4) = true := by
      simp only [fitsIn, v4, w4, Consts]
      decide
    obtain ⟨σ4, d4⟩ : ∃ σ4, σ4 = Function.update σ3 0 ((i : ℚ) / (i + 1)) := ⟨_, rfl⟩
    have v5 : value σ4 (.right .add 1 1 1) = some ((i : ℚ) + 1) := by simp [value, eval, a2, d4, d3, d2, d1]
    have f5 : fitsIn 2147483647 σ4 (.right .add 1 1 1) = true := by
      simp only [fitsIn, v5, w1, Consts]
      decide
    simp only [telescopeBody, runR, f1, v1, if_true, Stmt.target, ← d1, f2, v2, ← d2, f3, v3, ← d3, f4, v4, ← d4, f5, v5]
  · refine ⟨?_, ?_, ?_, ?_⟩ <;> simp [a3, a4]

theorem loopR_ends {K : Int} (hK : K ≤ 46339) (m : Nat) {i : Int} (h0 : 1 ≤ i) (hm : K + 1 - i = m) {σ : Nat → ℚ}
    (h : RoundQ K i σ) (n : Nat) :
    ∃ σ', runR (fitsIn 2147483647) (n + m + 5 + 1) σ (.loop .le 1 2 telescopeBody) = .ends σ' ∧ RoundQ K (K + 1) σ' := by
  induction m generalizing i σ with
  | zero =>
    have hi : i = K + 1 := by omega
    subst hi
    refine ⟨σ, ?_, h⟩
    have c : holds .le (σ 1) (σ 2) = false := by
      rw [h.2.1, h.2.2.1]
      simp [holds]
    rw [runR, c]
    rfl
  | succ m ih =>
    obtain ⟨σ1, e1, h1⟩ := bodyR_step (i := i) h0 (by omega) h (n + (m + 1))
    obtain ⟨σ2, e2, h2⟩ := ih (i := i + 1) (by omega) (by omega) h1
    refine ⟨σ2, ?_, h2⟩
    have c : holds .le (σ 1) (σ 2) = true := by
      rw [h.2.1, h.2.2.1]
      have : i ≤ K := by omega
      simpa [holds] using this
    rw [runR, c, if_pos rfl, e1]
    have : n + (m + 1) + 5 = n + m + 5 + 1 := by omega
    rw [this]
    exact e2

theorem telescopeR_start {K : Int} (hK : Small K) (n : Nat) :
    ∃ σ, RoundQ K 1 σ ∧ runR (fitsIn 2147483647) (n + 4) (fun _ => 0) (telescope K) =
      runR (fitsIn 2147483647) (n + 1) σ (.loop .le 1 2 telescopeBody) := by
  refine ⟨Function.update (Function.update (Function.update (fun _ => 0) 1 ((1 : Int) : ℚ)) 2 K) 3 ((1 : Int) : ℚ), ?_, ?_⟩
  · refine ⟨?_, ?_, ?_, ?_⟩ <;> simp
  · have w : ∀ k : Int, Small k → ∀ (σ : Nat → ℚ) x, fitsIn 2147483647 σ (.declInt x k) = true := by
      intro k hk σ x
      have : Within 2147483647 (k : ℚ) := within_int (by norm_num) (by unfold Small INT_MAX at hk; rw [abs_le]; exact_mod_cast hk)
      simp [fitsIn, value, Consts, this, hk]
    have w1 := w 1 (by decide)
    have h : ∀ k, runR (fitsIn 2147483647) (n + 4) (fun _ => 0)
        (.seq (.stmt (.declInt 1 1)) (.seq (.stmt (.declInt 2 K)) (.seq (.stmt (.declInt 3 1)) k))) =
        runR (fitsIn 2147483647) (n + 1)
          (Function.update (Function.update (Function.update (fun _ => 0) 1 ((1 : Int) : ℚ)) 2 K) 3 ((1 : Int) : ℚ)) k := by
      intro k
      simp only [runR, w1, w K hK, if_true, value, Stmt.target]
    exact h _

end Fraction
