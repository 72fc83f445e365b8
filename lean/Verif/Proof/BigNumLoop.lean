import Verif.Spec.BigNumLoop
import Verif.Proof.BigNumProg
import Mathlib.Data.Nat.Factorial.Basic
import Mathlib.Algebra.BigOperators.Intervals

/-! # Helper lemmas for programs with loops over big numbers -/

namespace BigNum
open Cpp Spec

theorem test_holds {N : Nat} {a b : Big} {x y : Int} (ha : Holds N a x) (hb : Holds N b y) (R : Rel) [Decidable (holds x y R)] :
    test a b R = .ok (decide (holds x y R)) := by
  obtain ⟨c, e, h1, h2⟩ := cmp_spec ha.clean.toValid hb.clean.toValid (fun _ => ha.sign) (fun _ => hb.sign)
  rw [ha.val, hb.val] at h1 h2
  cases R <;> (unfold test lt le gt ge eq ne; dsimp only; rw [e, Out.ok_bind]; refine congrArg _ ?_
               rw [decide_eq_decide]; unfold holds; omega)

theorem runP_mono {N fuel : Nat} : ∀ {n : Nat} {st st' : Vars} {p : Prog}, runP N fuel n st p = .ok st' →
    ∀ {m : Nat}, n ≤ m → runP N fuel m st p = .ok st'
  | 0, _, _, _, e, _, _ => by cases e
  | n + 1, st, st', p, e, m, h => by
    obtain ⟨m, rfl⟩ : ∃ k, m = k + 1 := ⟨m - 1, by omega⟩
    cases p with
    | stmt s => exact e
    | seq p q =>
      rw [runP] at e ⊢
      obtain ⟨s1, e1, e2⟩ := Out.bind_eq_ok.1 e
      rw [runP_mono e1 (by omega), Out.ok_bind]
      exact runP_mono e2 (by omega)
    | cond R x y p q =>
      rw [runP] at e ⊢
      obtain ⟨c, e1, e2⟩ := Out.bind_eq_ok.1 e
      rw [e1, Out.ok_bind]
      cases c with
      | true => exact runP_mono e2 (by omega)
      | false => exact runP_mono e2 (by omega)
    | loop R x y p =>
      rw [runP] at e ⊢
      obtain ⟨c, e1, e2⟩ := Out.bind_eq_ok.1 e
      rw [e1, Out.ok_bind]
      cases c with
      | true =>
        simp only [if_true] at e2 ⊢
        obtain ⟨s1, e3, e4⟩ := Out.bind_eq_ok.1 e2
        rw [runP_mono e3 (by omega), Out.ok_bind]
        exact runP_mono e4 (by omega)
      | false => exact e2

theorem runs_holds {N fuel : Nat} {σ σ' : Nat → Int} {p : Prog} (h : Runs (GrowsIn N) σ p σ') :
    ∀ {st : Vars}, (∀ x, Holds N (st x) (σ x)) → ∃ n st', runP N (fuel + 2) n st p = .ok st' ∧ ∀ x, Holds N (st' x) (σ' x) := by
  induction h with
  | stmt h =>
    intro st hs
    obtain ⟨st', e, h'⟩ := exec_holds (fuel := fuel) hs _ h.1.1 h.1.2 h.2
    exact ⟨1, st', e, h'⟩
  | seq _ _ ih ih' =>
    intro st hs
    obtain ⟨n1, s1, e1, h1⟩ := ih hs
    obtain ⟨n2, s2, e2, h2⟩ := ih' h1
    refine ⟨max n1 n2 + 1, s2, ?_, h2⟩
    rw [runP, runP_mono e1 (by omega), Out.ok_bind]
    exact runP_mono e2 (by omega)
  | @yes σ τ R x y p q c _ ih =>
    intro st hs
    classical
    obtain ⟨n1, s1, e1, h1⟩ := ih hs
    refine ⟨n1 + 1, s1, ?_, h1⟩
    rw [runP, test_holds (hs x) (hs y) R, Out.ok_bind, decide_eq_true c]
    exact e1
  | @no σ τ R x y p q c _ ih =>
    intro st hs
    classical
    obtain ⟨n1, s1, e1, h1⟩ := ih hs
    refine ⟨n1 + 1, s1, ?_, h1⟩
    rw [runP, test_holds (hs x) (hs y) R, Out.ok_bind, decide_eq_false c]
    exact e1
  | @again σ τ υ R x y p c _ _ ih ih' =>
    intro st hs
    classical
    obtain ⟨n1, s1, e1, h1⟩ := ih hs
    obtain ⟨n2, s2, e2, h2⟩ := ih' h1
    refine ⟨max n1 n2 + 1, s2, ?_, h2⟩
    rw [runP, test_holds (hs x) (hs y) R, Out.ok_bind, decide_eq_true c, if_pos rfl, runP_mono e1 (by omega), Out.ok_bind]
    exact runP_mono e2 (by omega)
  | @done σ R x y p c =>
    intro st hs
    classical
    refine ⟨1, st, ?_, hs⟩
    rw [runP, test_holds (hs x) (hs y) R, Out.ok_bind, decide_eq_false c]
    rfl

theorem runP_unique {N fuel n m : Nat} {st s1 s2 : Vars} {p : Prog} (h1 : runP N fuel n st p = .ok s1)
    (h2 : runP N fuel m st p = .ok s2) : s1 = s2 := by
  have e1 := runP_mono h1 (Nat.le_max_left n m)
  rw [runP_mono h2 (Nat.le_max_right n m)] at e1
  injection e1 with e1
  exact e1.symm

/-! ## evaluating over the integers -/

instance (a b : Int) (R : Rel) : Decidable (holds a b R) := by cases R <;> unfold holds <;> infer_instance

instance (N : Nat) (σ : Nat → Int) (s : Stmt) : Decidable (FitsIn N σ s) := inferInstanceAs (Decidable (_ ∧ _))

instance (N : Nat) (σ : Nat → Int) (s : Stmt) : Decidable (GrowsIn N σ s) := inferInstanceAs (Decidable (_ ∧ _))

/-- running over the integers, as long as `Q` holds -/
def runI (Q : (Nat → Int) → Stmt → Prop) [∀ σ s, Decidable (Q σ s)] : Nat → (Nat → Int) → Prog → Option (Nat → Int)
  | 0, _, _ => none
  | _ + 1, σ, .stmt s => if Q σ s then some (eval σ s) else none
  | n + 1, σ, .seq p q => (runI Q n σ p).bind fun τ => runI Q n τ q
  | n + 1, σ, .cond R x y p q => if holds (σ x) (σ y) R then runI Q n σ p else runI Q n σ q
  | n + 1, σ, .loop R x y p =>
    if holds (σ x) (σ y) R then (runI Q n σ p).bind fun τ => runI Q n τ (.loop R x y p) else some σ

theorem runI_runs {Q : (Nat → Int) → Stmt → Prop} [∀ σ s, Decidable (Q σ s)] : ∀ {n : Nat} {σ τ : Nat → Int} {p : Prog},
    runI Q n σ p = some τ → Runs Q σ p τ
  | 0, _, _, _, e => by cases e
  | n + 1, σ, τ, p, e => by
    cases p with
    | stmt s =>
      rw [runI] at e
      split at e
      · rename_i h; injection e with e; subst e; exact .stmt h
      · cases e
    | seq p q =>
      rw [runI] at e
      obtain ⟨υ, e1, e2⟩ := Option.bind_eq_some_iff.1 e
      exact .seq (runI_runs e1) (runI_runs e2)
    | cond R x y p q =>
      rw [runI] at e
      split at e
      · rename_i c; exact .yes c (runI_runs e)
      · rename_i c; exact .no c (runI_runs e)
    | loop R x y p =>
      rw [runI] at e
      split at e
      · rename_i c
        obtain ⟨υ, e1, e2⟩ := Option.bind_eq_some_iff.1 e
        exact .again c (runI_runs e1) (runI_runs e2)
      · rename_i c; injection e with e; subst e; exact .done c

/-! ## decimal places -/

theorem decimalDigits_mono : ∀ {a b : Nat}, a ≤ b → (decimalDigits a).length ≤ (decimalDigits b).length := by
  intro a
  induction a using Nat.strong_induction_on with
  | _ a ih =>
    intro b h
    by_cases ha : a = 0
    · subst ha; rw [decimalDigits_zero]; simp
    · rw [decimalDigits_pos ha, decimalDigits_pos (show b ≠ 0 by omega)]
      have := ih (a / 10) (by omega) (b := b / 10) (by omega)
      simpa using this

theorem places_mono {x y : Int} (h0 : 0 ≤ x) (h : x ≤ y) : places x ≤ places y := decimalDigits_mono (by omega)

theorem places_pos {x : Int} (h : 0 < x) : 1 ≤ places x := by
  have := places_mono (x := 1) (by omega) (y := x) (by omega)
  rwa [places_one] at this

/-! ## two programs -/

theorem factorial_loop {N : Nat} {k : Nat} (hN : N ≤ 20000000) (hp : places (k.factorial : Int) + places k ≤ N) :
    ∀ (n i : Nat) (σ : Nat → Int), i + n = k + 1 → 1 ≤ i → σ 0 = ((i - 1).factorial : Int) → σ 1 = i → σ 2 = k →
    ∃ σ', Runs (GrowsIn N) σ (.loop .le 1 2 (.seq (.stmt (.times 0 0 1)) (.stmt (.inc 1)))) σ' ∧
      σ' 0 = (k.factorial : Int) ∧ σ' 2 = k := by
  intro n
  induction n with
  | zero =>
    intro i σ hi h1 s0 s1 s2
    refine ⟨σ, .done (by simp only [holds, s1, s2]; omega), ?_, s2⟩
    rw [s0, show i - 1 = k by omega]
  | succ n ih =>
    intro i σ hi h1 s0 s1 s2
    obtain ⟨i, rfl⟩ : ∃ j, i = j + 1 := ⟨i - 1, by omega⟩
    simp only [Nat.add_sub_cancel] at s0
    have hf1 : ((i.factorial : Nat) : Int) ≤ ((k.factorial : Nat) : Int) := by
      exact_mod_cast Nat.factorial_le (show i ≤ k by omega)
    have hf0 : (0 : Int) < ((i.factorial : Nat) : Int) := by exact_mod_cast Nat.factorial_pos i
    have p1 := places_mono hf0.le hf1
    have p2 := places_mono (x := ((i + 1 : Nat) : Int)) (y := (k : Int)) (by omega) (by omega)
    have p3 := places_pos (show (0 : Int) < ((k.factorial : Nat) : Int) by exact_mod_cast Nat.factorial_pos k)
    have p4 := places_pos (show (0 : Int) < ((i + 1 : Nat) : Int) by omega)
    have hm : (i.factorial : Int) * ((i + 1 : Nat) : Int) = (((i + 1).factorial : Nat) : Int) := by
      rw [Nat.factorial_succ]; push_cast; ring
    let τ := eval σ (.times 0 0 1)
    let υ := eval τ (.inc 1)
    have t0 : τ 0 = ((i + 1).factorial : Int) := by
      simp only [τ, eval, target, result, Function.update_self, s0, s1, hm]
    have t1 : τ 1 = ((i + 1 : Nat) : Int) := by simp [τ, eval, target, s1]
    have t2 : τ 2 = k := by simp [τ, eval, target, s2]
    obtain ⟨σ', hr, e0, e2⟩ := ih (i + 2) υ (by omega) (by omega)
      (by simp [υ, eval, target, t0]) (by simp only [υ, eval, target, result, Function.update_self, t1]; push_cast; ring)
      (by simp [υ, eval, target, t2])
    refine ⟨σ', .again (by simp only [holds, s1, s2]; omega) (.seq (.stmt ⟨⟨?_, ?_, hN⟩, ?_⟩) (.stmt ⟨⟨?_, ?_, ?_⟩, ?_⟩)) hr, e0, e2⟩
    · simp only [result, s0, s1]; positivity
    · rw [s0, s1]; omega
    · show places (σ 0) ≤ places (σ 0 * σ 1)
      rw [s0, s1]
      refine places_mono hf0.le ?_
      push_cast
      nlinarith
    · show 0 ≤ τ 1 + 1
      rw [t1]; omega
    · show places (τ 1) < N
      rw [t1]; omega
    · omega
    · show places (τ 1) ≤ places (τ 1 + 1)
      rw [t1]
      exact places_mono (by omega) (by omega)

theorem factorial_runs {N : Nat} {k : Nat} (hN : N ≤ 20000000) (hp : places (k.factorial : Int) + places k ≤ N) :
    ∃ σ', Runs (GrowsIn N) (fun _ => 0) (factorialProg k) σ' ∧ σ' 0 = (k.factorial : Int) := by
  have p3 := places_pos (show (0 : Int) < ((k.factorial : Nat) : Int) by exact_mod_cast Nat.factorial_pos k)
  obtain ⟨σ', hr, e0, -⟩ := factorial_loop hN hp k 1 (eval (eval (eval (fun _ => 0) (.decl 0 1)) (.decl 1 1)) (.decl 2 k))
    (by omega) (by omega) (by simp [eval, target, result]) (by simp [eval, target, result]) (by simp [eval, target, result])
  refine ⟨σ', .seq (.stmt ⟨⟨?_, ?_, ?_⟩, trivial⟩) (.seq (.stmt ⟨⟨?_, ?_, ?_⟩, trivial⟩) (.seq (.stmt ⟨⟨?_, ?_, ?_⟩, trivial⟩) hr)), e0⟩
  · simp [result]
  · omega
  · rw [places_one]; omega
  · simp [result]
  · omega
  · rw [places_one]; omega
  · simp [result]
  · omega
  · omega

theorem sum_loop {N : Nat} {k : Nat} (hp : places ((k * (k + 1) / 2 : Nat) : Int) < N) (h1N : 1 < N) :
    ∀ (n i : Nat) (σ : Nat → Int), i + n = k + 1 → 1 ≤ i → σ 0 = (((i - 1) * i / 2 : Nat) : Int) → σ 1 = i → σ 2 = k →
    ∃ σ', Runs (GrowsIn N) σ (.loop .le 1 2 (.seq (.stmt (.plusEq 0 1)) (.stmt (.inc 1)))) σ' ∧
      σ' 0 = ((k * (k + 1) / 2 : Nat) : Int) := by
  intro n
  induction n with
  | zero =>
    intro i σ hi h1 s0 s1 s2
    refine ⟨σ, .done (by simp only [holds, s1, s2]; omega), ?_⟩
    rw [s0, show i - 1 = k by omega, show i = k + 1 by omega]
  | succ n ih =>
    intro i σ hi h1 s0 s1 s2
    obtain ⟨i, rfl⟩ : ∃ j, i = j + 1 := ⟨i - 1, by omega⟩
    simp only [Nat.add_sub_cancel] at s0
    have hik : i + 1 ≤ k := by omega
    have hs : i * (i + 1) / 2 + (i + 1) = (i + 1) * (i + 2) / 2 := by
      rw [show (i + 1) * (i + 2) = i * (i + 1) + (i + 1) * 2 by ring, Nat.add_mul_div_right _ _ (by omega)]
    have hm : (i + 1) * (i + 2) / 2 ≤ k * (k + 1) / 2 := Nat.div_le_div_right (Nat.mul_le_mul hik (by omega))
    have hi1 : i + 1 ≤ k * (k + 1) / 2 := by omega
    have p1 := places_mono (x := ((i * (i + 1) / 2 : Nat) : Int)) (y := ((k * (k + 1) / 2 : Nat) : Int)) (by omega) (by omega)
    have p2 := places_mono (x := ((i + 1 : Nat) : Int)) (y := ((k * (k + 1) / 2 : Nat) : Int)) (by omega) (by omega)
    let τ := eval σ (.plusEq 0 1)
    let υ := eval τ (.inc 1)
    have t0 : τ 0 = (((i + 1) * (i + 2) / 2 : Nat) : Int) := by
      simp only [τ, eval, target, result, Function.update_self, s0, s1]
      rw [← hs]; push_cast; ring
    have t1 : τ 1 = ((i + 1 : Nat) : Int) := by simp [τ, eval, target, s1]
    have t2 : τ 2 = k := by simp [τ, eval, target, s2]
    obtain ⟨σ', hr, e0⟩ := ih (i + 2) υ (by omega) (by omega)
      (by
        have : υ 0 = τ 0 := by simp [υ, eval, target]
        rw [this, t0]; rfl)
      (by simp only [υ, eval, target, result, Function.update_self, t1]; push_cast; ring)
      (by simp [υ, eval, target, t2])
    refine ⟨σ', .again (by simp only [holds, s1, s2]; omega) (.seq (.stmt ⟨⟨?_, ?_, ?_⟩, ?_⟩) (.stmt ⟨⟨?_, ?_, h1N⟩, ?_⟩)) hr, e0⟩
    · show 0 ≤ σ 0 + σ 1
      rw [s0, s1]; omega
    · rw [s0]; omega
    · rw [s1]; omega
    · show places (σ 0) ≤ places (σ 0 + σ 1)
      rw [s0, s1]
      exact places_mono (by omega) (by omega)
    · show 0 ≤ τ 1 + 1
      rw [t1]; omega
    · show places (τ 1) < N
      rw [t1]; omega
    · show places (τ 1) ≤ places (τ 1 + 1)
      rw [t1]
      exact places_mono (by omega) (by omega)

theorem sum_runs {N : Nat} {k : Nat} (hp : places ((k * (k + 1) / 2 : Nat) : Int) < N) (h1N : 1 < N) :
    ∃ σ', Runs (GrowsIn N) (fun _ => 0) (sumProg k) σ' ∧ σ' 0 = ((k * (k + 1) / 2 : Nat) : Int) := by
  have hk : k ≤ k * (k + 1) / 2 := by
    cases k with
    | zero => simp
    | succ k =>
      rw [Nat.le_div_iff_mul_le (by omega)]
      exact Nat.mul_le_mul_left _ (by omega)
  have p2 := places_mono (x := (k : Int)) (y := ((k * (k + 1) / 2 : Nat) : Int)) (by omega) (by omega)
  obtain ⟨σ', hr, e0⟩ := sum_loop hp h1N k 1 (eval (eval (eval (fun _ => 0) (.decl 0 0)) (.decl 1 1)) (.decl 2 k))
    (by omega) (by omega) (by simp [eval, target, result]) (by simp [eval, target, result]) (by simp [eval, target, result])
  refine ⟨σ', .seq (.stmt ⟨⟨?_, ?_, ?_⟩, trivial⟩) (.seq (.stmt ⟨⟨?_, ?_, ?_⟩, trivial⟩) (.seq (.stmt ⟨⟨?_, ?_, ?_⟩, trivial⟩) hr)), e0⟩
  · simp [result]
  · omega
  · rw [places_zero]; omega
  · simp [result]
  · omega
  · rw [places_one]; omega
  · simp [result]
  · omega
  · omega

end BigNum
