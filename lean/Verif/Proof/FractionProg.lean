import Verif.Spec.FractionProg
import Verif.Props.Fraction

/-! # Lemmas on programs with fractions (C153) -/

namespace Fraction
open Cpp MathFns Spec

/-- The outcome is a value or undefined. -/
def Proper {α : Type} (x : Out α) : Prop := x ≠ .exit ∧ x ≠ .diverge

theorem Proper.bind {α β : Type} {x : Out α} {f : α → Out β} (h : Proper x) (hf : ∀ a, x = .ok a → Proper (f a)) :
    Proper (x >>= f) := by
  cases x with
  | ok a => exact hf a rfl
  | exit => exact absurd rfl h.1
  | diverge => exact absurd rfl h.2
  | ub => exact ⟨by simp, by simp⟩

theorem Proper.ok {α : Type} (a : α) : Proper (.ok a : Out α) := ⟨by simp, by simp⟩

theorem Proper.ub {α : Type} : Proper (.ub : Out α) := ⟨by simp, by simp⟩

theorem proper_int (x : Int) : Proper (int x) := by
  unfold int
  split
  · exact Proper.ok _
  · exact Proper.ub

theorem proper_quot (a b : Int) : Proper (quot a b) := by
  unfold quot
  split
  · exact Proper.ub
  · split
    · exact Proper.ub
    · exact Proper.ok _

theorem proper_gcd {a b : Int} (ha : IsInt a) (hb : IsInt b) : Proper (MathFns.gcd a b) := by
  by_cases h1 : a = INT_MIN ∧ b = -1
  · rw [gcd_ub a b (.inl h1)]; exact Proper.ub
  by_cases h2 : a = -1 ∧ b = INT_MIN
  · rw [gcd_ub a b (.inr h2)]; exact Proper.ub
  obtain ⟨g, e, -⟩ := gcd_spec a b ha hb h1 h2
  rw [e]; exact Proper.ok _

theorem proper_mk2 {n d : Int} (hn : IsInt n) (hd : IsInt d) (h0 : d ≠ 0) : Proper (mk2 n d) := by
  unfold mk2
  rw [if_neg h0]
  refine (proper_gcd hn hd).bind fun g _ => (proper_quot _ _).bind fun n' _ => (proper_quot _ _).bind fun d' _ => ?_
  refine Proper.bind ?_ fun _ _ => (proper_int _).bind fun _ _ => Proper.ok _
  split
  · exact proper_int _
  · exact Proper.ok _

/-- What an operation may give: the right value, or undefined behaviour, or the end of the program if there is no value. -/
def Right (x : Out Frac) (v : Option ℚ) : Prop :=
  (∀ f, x = .ok f → Canonical f ∧ v = some (val f)) ∧ (x = .exit → v = none) ∧ x ≠ .diverge

theorem Right.of_proper {x : Out Frac} {v : Option ℚ} (hp : Proper x) (h : ∀ f, x = .ok f → Canonical f ∧ v = some (val f)) :
    Right x v := ⟨h, fun e => absurd e hp.1, hp.2⟩

theorem mk2_right {n d : Int} (hn : IsInt n) (hd : IsInt d) : Right (mk2 n d) (eval .div n d) := by
  by_cases h0 : d = 0
  · subst h0
    refine ⟨fun f h => ?_, fun _ => by simp [eval], ?_⟩
    · rw [mk2, if_pos rfl] at h; cases h
    · rw [mk2, if_pos rfl]; simp
  · refine Right.of_proper (proper_mk2 hn hd h0) fun f h => ?_
    have := mk2_val hn hd h
    refine ⟨this.1, ?_⟩
    rw [eval, if_neg (by exact_mod_cast h0), this.2]

theorem den_mul_ne {a b : Frac} (ha : Canonical a) (hb : Canonical b) : a.den * b.den ≠ 0 :=
  mul_ne_zero ha.den_pos.ne' hb.den_pos.ne'

theorem binary_right (o : Op) {a b : Frac} (ha : Canonical a) (hb : Canonical b) :
    Right (binary o a b) (eval o (val a) (val b)) := by
  cases o with
  | add =>
    refine Right.of_proper ?_ fun f h => ⟨(add_val ha hb h).1, by rw [(add_val ha hb h).2]; rfl⟩
    refine (proper_int _).bind fun p _ => (proper_int _).bind fun q _ => (proper_int _).bind fun n hn =>
      (proper_int _).bind fun d hd => ?_
    rw [int_eq_ok] at hn hd
    obtain ⟨hn, rfl⟩ := hn
    obtain ⟨hd, rfl⟩ := hd
    exact proper_mk2 hn hd (den_mul_ne ha hb)
  | sub =>
    refine Right.of_proper ?_ fun f h => ⟨(sub_val ha hb h).1, by rw [(sub_val ha hb h).2]; rfl⟩
    refine (proper_int _).bind fun p _ => (proper_int _).bind fun q _ => (proper_int _).bind fun n hn =>
      (proper_int _).bind fun d hd => ?_
    rw [int_eq_ok] at hn hd
    obtain ⟨hn, rfl⟩ := hn
    obtain ⟨hd, rfl⟩ := hd
    exact proper_mk2 hn hd (den_mul_ne ha hb)
  | mul =>
    refine Right.of_proper ?_ fun f h => ⟨(mul_val h).1, by rw [(mul_val h).2]; rfl⟩
    refine (proper_int _).bind fun n hn => (proper_int _).bind fun d hd => ?_
    rw [int_eq_ok] at hn hd
    obtain ⟨hn, rfl⟩ := hn
    obtain ⟨hd, rfl⟩ := hd
    exact proper_mk2 hn hd (den_mul_ne ha hb)
  | div =>
    show Right (div a b) _
    by_cases h0 : b.num = 0
    · have hv : val b = 0 := by simp [val, h0]
      refine ⟨fun f h => absurd hv ((C15_exact a b f ha hb).2.2.2 h).1, fun _ => by simp [eval, hv], ?_⟩
      unfold div
      by_cases hi : IsInt (a.num * b.den)
      · rw [int_ok hi, Out.ok_bind, h0, mul_zero, int_ok (by decide), Out.ok_bind, mk2, if_pos rfl]; simp
      · intro h
        have := proper_int (a.num * b.den)
        unfold int at h this
        rw [if_neg hi] at h
        simp at h
    · have hv : val b ≠ 0 := by
        unfold val
        have : (b.num : ℚ) ≠ 0 := by exact_mod_cast h0
        exact div_ne_zero this (den_ne hb)
      refine Right.of_proper ?_ fun f h => ⟨(div_val h).1, by rw [eval, if_neg hv, (div_val h).2]⟩
      refine (proper_int _).bind fun n hn => (proper_int _).bind fun d hd => ?_
      rw [int_eq_ok] at hn hd
      obtain ⟨hn, rfl⟩ := hn
      obtain ⟨hd, rfl⟩ := hd
      exact proper_mk2 hn hd (mul_ne_zero ha.den_pos.ne' h0)

theorem withInt_eq (o : Op) (a : Frac) (n : Int) : withInt o a n = binary o a ⟨n, 1⟩ := by
  cases o <;> simp [withInt, binary, addInt, subInt, mulInt, divInt, ofInt_eq]

theorem compound_eq (o : Op) (a b : Frac) (h : o ≠ .div) : compound o a b = binary o a b := by
  cases o
  · exact addAssign_eq a b
  · exact subAssign_eq a b
  · exact mulAssign_eq a b
  · exact absurd rfl h

/-- What a statement gives to its variable. -/
theorem value_right (s : Stmt) (st : Vars) (hc : ∀ x, Canonical (st x)) (ht : Typed s) (hp : Plain s) :
    Right (s.value st) (value (fun x => val (st x)) s) := by
  cases s with
  | decl x n d => exact mk2_right ht.1 ht.2
  | declInt x n =>
    show Right (ofInt n) _
    rw [ofInt_eq]
    refine Right.of_proper (Proper.ok _) fun f h => ?_
    simp only [Out.ok.injEq] at h
    subst h
    exact ⟨ofInt_canonical n ht, by rw [val_ofInt]; rfl⟩
  | copy x y =>
    refine Right.of_proper (Proper.ok _) fun f h => ?_
    have h' : st y = f := by simpa [Stmt.value] using h
    subst h'
    exact ⟨hc y, rfl⟩
  | bin o x y z => exact binary_right o (hc y) (hc z)
  | assign o x y =>
    show Right (compound o (st x) (st y)) _
    rw [compound_eq o _ _ hp]
    exact binary_right o (hc x) (hc y)
  | right o x y n =>
    show Right (withInt o (st y) n) (eval o (val (st y)) n)
    rw [withInt_eq, ← val_ofInt n]
    exact binary_right o (hc y) (ofInt_canonical n ht)
  | left o x n y =>
    rcases hp with rfl | rfl
    · show Right (intAdd n (st y)) (eval .add n (val (st y)))
      have e : eval .add n (val (st y)) = eval .add (val (st y)) n := by simp [eval, add_comm]
      rw [e, ← val_ofInt n, intAdd, ofInt_eq, Out.ok_bind]
      exact binary_right .add (hc y) (ofInt_canonical n ht)
    · show Right (intMul n (st y)) (eval .mul n (val (st y)))
      have e : eval .mul n (val (st y)) = eval .mul (val (st y)) n := by simp [eval, mul_comm]
      rw [e, ← val_ofInt n, intMul, ofInt_eq, Out.ok_bind]
      exact binary_right .mul (hc y) (ofInt_canonical n ht)

theorem cross_ok {a b : Frac} {r : Int × Int} (h : cross a b = .ok r) : IsInt (a.num * b.den) ∧ IsInt (a.den * b.num) := by
  unfold cross at h
  obtain ⟨p, h1, h⟩ := Out.bind_eq_ok.mp h
  obtain ⟨q, h2, h⟩ := Out.bind_eq_ok.mp h
  exact ⟨(int_eq_ok.1 h1).1, (int_eq_ok.1 h2).1⟩

/-- A comparison gives the right answer or is undefined. -/
theorem compare_right (c : Cmp) {a b : Frac} (ha : Canonical a) (hb : Canonical b) :
    compare c a b = .ub ∨ compare c a b = .ok (holds c (val a) (val b)) := by
  have key : IsInt (a.num * b.den) → IsInt (a.den * b.num) → _ := C16_order a b ha hb
  have hcr : cross a b = .ub ∨ (IsInt (a.num * b.den) ∧ IsInt (a.den * b.num)) := by
    by_cases h1 : IsInt (a.num * b.den)
    · by_cases h2 : IsInt (a.den * b.num)
      · exact .inr ⟨h1, h2⟩
      · left; unfold cross; rw [int_ok h1, Out.ok_bind]; unfold int; rw [if_neg h2]; rfl
    · left; unfold cross int; rw [if_neg h1]; rfl
  have e := C16_eq a b ha hb
  cases c with
  | eq =>
    right
    show Out.ok (eq a b) = .ok (decide _)
    congr 1
    rw [Bool.eq_iff_iff, e.1, decide_eq_true_iff]
  | ne =>
    right
    show Out.ok (ne a b) = .ok (decide _)
    congr 1
    rw [Bool.eq_iff_iff, e.2, decide_eq_true_iff]
  | lt =>
    rcases hcr with h | ⟨h1, h2⟩
    · left; show lt a b = .ub; unfold lt; rw [h]; rfl
    · right; exact (key h1 h2).1
  | le =>
    rcases hcr with h | ⟨h1, h2⟩
    · left; show le a b = .ub; unfold le; rw [h]; rfl
    · right; exact (key h1 h2).2.1
  | gt =>
    rcases hcr with h | ⟨h1, h2⟩
    · left; show gt a b = .ub; unfold gt; rw [h]; rfl
    · right; exact (key h1 h2).2.2.1
  | ge =>
    rcases hcr with h | ⟨h1, h2⟩
    · left; show ge a b = .ub; unfold ge; rw [h]; rfl
    · right; exact (key h1 h2).2.2.2

theorem val_update (st : Vars) (x : Nat) (v : Frac) :
    (fun y => val (Function.update st x v y)) = Function.update (fun y => val (st y)) x (val v) := by
  funext y
  by_cases h : y = x
  · subst h; simp
  · simp [Function.update_of_ne h]

theorem canonical_update {st : Vars} (hc : ∀ x, Canonical (st x)) (x : Nat) {v : Frac} (hv : Canonical v) :
    ∀ y, Canonical (Function.update st x v y) := by
  intro y
  by_cases h : y = x
  · subst h; simpa using hv
  · rw [Function.update_of_ne h]; exact hc y

/-- Programs give the right values, or end if there are none, or are undefined. -/
theorem run_right (p : Prog) (st : Vars) (hc : ∀ x, Canonical (st x)) (ht : All Typed p) (hp : All Plain p) :
    (∀ st', p.run st = .ok st' → (∀ x, Canonical (st' x)) ∧ Spec.run p (fun x => val (st x)) = some fun x => val (st' x)) ∧
    (p.run st = .exit → Spec.run p (fun x => val (st x)) = none) ∧ p.run st ≠ .diverge := by
  induction p generalizing st with
  | done =>
    refine ⟨fun st' h => ?_, fun h => ?_, ?_⟩
    · simp only [Prog.run, Out.ok.injEq] at h
      subst h
      exact ⟨hc, rfl⟩
    · simp [Prog.run] at h
    · simp [Prog.run]
  | step s p ih =>
    obtain ⟨r1, r2, r3⟩ := value_right s st hc ht.1 hp.1
    simp only [Prog.run, Spec.run]
    cases hv : s.value st with
    | ub => exact ⟨fun st' h => by simp at h, fun h => by simp at h, by simp⟩
    | diverge => exact absurd hv r3
    | exit => exact ⟨fun st' h => by simp at h, fun _ => by rw [r2 hv]; rfl, by simp⟩
    | ok v =>
      obtain ⟨cv, ev⟩ := r1 v hv
      rw [ev, Option.bind_some, ← val_update, Out.ok_bind]
      exact ih _ (canonical_update hc _ cv) ht.2 hp.2
  | branch c x y yes no ih1 ih2 =>
    simp only [Prog.run, Spec.run]
    rcases compare_right c (hc x) (hc y) with h | h
    · rw [h]; exact ⟨fun st' h => by simp at h, fun h => by simp at h, by simp⟩
    · rw [h, Out.ok_bind]
      cases hh : holds c (val (st x)) (val (st y)) with
      | true => simpa using ih1 st hc ht.1 hp.1
      | false => simpa using ih2 st hc ht.2 hp.2

/-! ### definedness -/

theorem canonical_num_den {f : Frac} (h : Canonical f) : (val f).num = f.num ∧ ((val f).den : Int) = f.den := by
  unfold val
  have hd := h.den_pos
  have h1 : Nat.Coprime f.num.natAbs f.den.natAbs := h.coprime
  refine ⟨Rat.num_div_eq_of_coprime hd h1, Rat.den_div_eq_of_coprime hd h1⟩

theorem within_bounds {B : Nat} {f : Frac} (h : Canonical f) (hw : Within B (val f)) : |f.num| ≤ B ∧ |f.den| ≤ B := by
  obtain ⟨h1, h2⟩ := canonical_num_den h
  obtain ⟨w1, w2⟩ := hw
  rw [h1] at w1
  constructor
  · rw [Int.abs_eq_natAbs]; exact_mod_cast w1
  · rw [abs_of_pos h.den_pos, ← h2]; exact_mod_cast w2

theorem mul_bound {a b : Int} (ha : |a| ≤ 32767) (hb : |b| ≤ 32767) : |a * b| ≤ 1073676289 := by
  rw [abs_mul]
  calc |a| * |b| ≤ 32767 * 32767 := mul_le_mul ha hb (abs_nonneg _) (by norm_num)
    _ = 1073676289 := by norm_num

theorem small_of_abs {a : Int} (h : |a| ≤ 2147483647) : Small a := by
  rw [abs_le] at h
  exact h

theorem binary_within (o : Op) {a b : Frac} (ha : Canonical a) (hb : Canonical b)
    (wa : |a.num| ≤ 32767 ∧ |a.den| ≤ 32767) (wb : |b.num| ≤ 32767 ∧ |b.den| ≤ 32767) : binary o a b ≠ .ub := by
  have m1 := mul_bound wa.1 wb.2
  have m2 := mul_bound wa.2 wb.1
  have m3 := mul_bound wa.2 wb.2
  have m4 := mul_bound wa.1 wb.1
  have s1 : Small (a.num * b.den) := small_of_abs (by omega)
  have s2 : Small (a.den * b.num) := small_of_abs (by omega)
  have s3 : Small (a.den * b.den) := small_of_abs (by omega)
  have s4 : Small (a.num * b.num) := small_of_abs (by omega)
  obtain ⟨k1, k2, k3, k4⟩ := C15_defined a b ha hb s1 s2 s3
  cases o with
  | add =>
    obtain ⟨c, e⟩ := k1 (small_of_abs (le_trans (abs_add_le _ _) (by omega)))
    show add a b ≠ .ub; rw [e]; simp
  | sub =>
    obtain ⟨c, e⟩ := k2 (small_of_abs (le_trans (abs_sub _ _) (by omega)))
    show sub a b ≠ .ub; rw [e]; simp
  | mul =>
    obtain ⟨c, e⟩ := k3 s4
    show mul a b ≠ .ub; rw [e]; simp
  | div =>
    show div a b ≠ .ub
    by_cases h0 : b.num = 0
    · rw [C15_div_zero a b h0 (small_isInt s1)]; simp
    · obtain ⟨c, e⟩ := k4 h0
      rw [e]; simp

theorem mk2_small {n d : Int} (hn : Small n) (hd : Small d) : mk2 n d ≠ .ub := by
  by_cases h0 : d = 0
  · rw [mk2, if_pos h0]; simp
  · obtain ⟨f, e⟩ := mk2_defined hn hd h0
    rw [e]; simp

theorem int_within {n : Int} (h : n.natAbs ≤ 32767) :
    |(⟨n, 1⟩ : Frac).num| ≤ 32767 ∧ |(⟨n, 1⟩ : Frac).den| ≤ 32767 ∧ Canonical ⟨n, 1⟩ := by
  have : |n| ≤ 32767 := by rw [Int.abs_eq_natAbs]; exact_mod_cast h
  refine ⟨this, (by show |(1 : Int)| ≤ 32767; decide), ofInt_canonical n (small_isInt (small_of_abs (by omega)))⟩

theorem value_within (s : Stmt) (st : Vars) (hc : ∀ x, Canonical (st x)) (hp : Plain s)
    (hw : ∀ x, Within 32767 (val (st x))) (hk : Consts 32767 s) : s.value st ≠ .ub := by
  have w := fun x => within_bounds (hc x) (hw x)
  cases s with
  | decl x n d => exact mk2_small hk.1 hk.2
  | declInt x n => show ofInt n ≠ .ub; rw [ofInt_eq]; simp
  | copy x y => simp [Stmt.value]
  | bin o x y z => exact binary_within o (hc y) (hc z) (w y) (w z)
  | assign o x y =>
    show compound o (st x) (st y) ≠ .ub
    rw [compound_eq o _ _ hp]
    exact binary_within o (hc x) (hc y) (w x) (w y)
  | right o x y n =>
    show withInt o (st y) n ≠ .ub
    rw [withInt_eq]
    obtain ⟨i1, i2, i3⟩ := int_within hk
    exact binary_within o (hc y) i3 (w y) ⟨i1, i2⟩
  | left o x n y =>
    obtain ⟨i1, i2, i3⟩ := int_within hk
    rcases hp with rfl | rfl
    · show intAdd n (st y) ≠ .ub
      rw [intAdd, ofInt_eq, Out.ok_bind]
      exact binary_within .add (hc y) i3 (w y) ⟨i1, i2⟩
    · show intMul n (st y) ≠ .ub
      rw [intMul, ofInt_eq, Out.ok_bind]
      exact binary_within .mul (hc y) i3 (w y) ⟨i1, i2⟩

theorem compare_within (c : Cmp) {a b : Frac} (ha : Canonical a) (hb : Canonical b)
    (wa : |a.num| ≤ 32767 ∧ |a.den| ≤ 32767) (wb : |b.num| ≤ 32767 ∧ |b.den| ≤ 32767) :
    compare c a b = .ok (holds c (val a) (val b)) := by
  have m1 := mul_bound wa.1 wb.2
  have m2 := mul_bound wa.2 wb.1
  have s1 : IsInt (a.num * b.den) := small_isInt (small_of_abs (by omega))
  have s2 : IsInt (a.den * b.num) := small_isInt (small_of_abs (by omega))
  rcases compare_right c ha hb with h | h
  · have k := C16_order a b ha hb s1 s2
    cases c with
    | lt => exact k.1
    | le => exact k.2.1
    | gt => exact k.2.2.1
    | ge => exact k.2.2.2
    | eq => simp [compare] at h
    | ne => simp [compare] at h
  · exact h

theorem typed_of_consts {s : Stmt} (h : Consts 32767 s) : Typed s := by
  cases s with
  | decl x n d => exact ⟨small_isInt h.1, small_isInt h.2⟩
  | declInt x n => exact small_isInt h
  | right o x y n =>
    have : n.natAbs ≤ 32767 := h
    exact small_isInt (isInt_small_iff.2 (by omega))
  | left o x n y =>
    have : n.natAbs ≤ 32767 := h
    exact small_isInt (isInt_small_iff.2 (by omega))
  | _ => trivial

theorem run_within (p : Prog) (st : Vars) (hc : ∀ x, Canonical (st x)) (hp : All Plain p)
    (hw : ∀ x, Within 32767 (val (st x))) (hf : Fits 32767 p (fun x => val (st x))) :
    match Spec.run p (fun x => val (st x)) with
    | some r => ∃ st', p.run st = .ok st' ∧ (∀ x, Canonical (st' x)) ∧ ∀ x, val (st' x) = r x
    | none => p.run st = .exit := by
  induction p generalizing st with
  | done => exact ⟨st, rfl, hc, fun _ => rfl⟩
  | step s p ih =>
    obtain ⟨r1, r2, r3⟩ := value_right s st hc (typed_of_consts hf.1) hp.1
    have r4 := value_within s st hc hp.1 hw hf.1
    simp only [Prog.run, Spec.run]
    cases hv : s.value st with
    | ub => exact absurd hv r4
    | diverge => exact absurd hv r3
    | exit => rw [r2 hv]; rfl
    | ok v =>
      obtain ⟨cv, ev⟩ := r1 v hv
      obtain ⟨wv, fp⟩ := hf.2 _ ev
      rw [← val_update] at fp
      rw [ev, Option.bind_some, ← val_update, Out.ok_bind]
      refine ih _ (canonical_update hc _ cv) hp.2 (fun y => ?_) fp
      by_cases h : y = s.target
      · subst h; simpa using wv
      · rw [Function.update_of_ne h]; exact hw y
  | branch c x y yes no ih1 ih2 =>
    have h := compare_within c (hc x) (hc y) (within_bounds (hc x) (hw x)) (within_bounds (hc y) (hw y))
    simp only [Prog.run, Spec.run, Fits] at hf ⊢
    rw [h, Out.ok_bind]
    cases hh : holds c (val (st x)) (val (st y)) with
    | true =>
      rw [hh] at hf
      simpa using ih1 st hc hp.1 hw (by simpa using hf)
    | false =>
      rw [hh] at hf
      simpa using ih2 st hc hp.2 hw (by simpa using hf)

end Fraction
