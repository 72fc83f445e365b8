import Verif.Proof.FractionLoop

/-!
# C163: programs with conditions and loops over `Fraction` variables

Full claim: whenever all values have numerators and denominators in the range of `int`, a program with conditions and loops over
`Fraction` variables computes what it computes over the rational numbers, step by step; a division by 0 ends it.  False for the
reasons of C153.  Proved: without `x /= y`, `n - y` and `n / y` no loop ever runs too often or too rarely and no value is wrong;
up to 32767 everything is defined; and for one loop exactly which inputs are too large.
-/

namespace Fraction.Props
open Cpp Spec

/-- The property C163. -/
def C163 : Prop :=
  ∀ (n : Nat) (p : Loop), Every Typed p →
    match runR (fitsIn 2147483647) n (fun _ => 0) p with
    | .ends σ => ∃ st, runL n (fun _ => ⟨0, 1⟩) p = .ok st ∧ ∀ x, val (st x) = σ x
    | .zero => runL n (fun _ => ⟨0, 1⟩) p = .exit
    | .more => runL n (fun _ => ⟨0, 1⟩) p = .diverge
    | .large => True

/-- **C163, a program.**  The loop that adds `1/(i(i+1))` for `i` from 1 to `K` leaves `K/(K+1)` in `s` for every `K` up to 1289,
and is undefined for every larger `K`. -/
theorem C163_telescope_partial (K : Int) (h0 : 0 ≤ K) (hK : IsInt K) (n : Nat) (hn : K + 9 ≤ n) (hn' : 1300 ≤ n) :
    (K ≤ 1289 → ∃ st, runL n (fun _ => ⟨0, 1⟩) (telescope K) = .ok st ∧ st 0 = ⟨K, K + 1⟩) ∧
    (1290 ≤ K → runL n (fun _ => ⟨0, 1⟩) (telescope K) = .ub) := by
  constructor
  · intro h
    obtain ⟨m, rfl⟩ : ∃ m : Nat, n = m + 4 := ⟨n - 4, by omega⟩
    obtain ⟨st, h1, e⟩ := telescope_start K m
    obtain ⟨k, hk⟩ : ∃ k : Nat, m = k + K.toNat + 5 := ⟨m - (K.toNat + 5), by omega⟩
    obtain ⟨st', e', h2⟩ := loop_ends h K.toNat (i := 1) (by norm_num) (by omega) h1 k
    refine ⟨st', by rw [e, hk]; exact e', ?_⟩
    rw [h2.1]
    simp
  · intro h
    obtain ⟨m, rfl⟩ : ∃ m : Nat, n = m + 4 := ⟨n - 4, by omega⟩
    obtain ⟨st, h1, e⟩ := telescope_start K m
    obtain ⟨k, hk⟩ : ∃ k : Nat, m = k + 1289 + 5 := ⟨m - (1289 + 5), by omega⟩
    rw [e, hk]
    exact loop_ub h hK 1289 (i := 1) (by norm_num) (by norm_num) h1 k

/-- Over the rational numbers the same loop ends with `K/(K+1)`, and up to 46339 all values are fractions of `int`s. -/
theorem telescope_rational (K : Int) (h0 : 0 ≤ K) (hK : K ≤ 46339) (n : Nat) (hn : K + 9 ≤ n) :
    ∃ σ, runR (fitsIn 2147483647) n (fun _ => 0) (telescope K) = .ends σ ∧ σ 0 = (K : ℚ) / (K + 1) := by
  obtain ⟨m, rfl⟩ : ∃ m : Nat, n = m + 4 := ⟨n - 4, by omega⟩
  obtain ⟨σ, h1, e⟩ := telescopeR_start (K := K) (by unfold Small INT_MAX; omega) m
  obtain ⟨k, hk⟩ : ∃ k : Nat, m = k + K.toNat + 5 := ⟨m - (K.toNat + 5), by omega⟩
  obtain ⟨σ', e', h2⟩ := loopR_ends hK K.toNat (i := 1) (by norm_num) (by omega) h1 k
  refine ⟨σ', by rw [e, hk]; exact e', ?_⟩
  rw [h2.1]
  simp

/-- **C163, refuted.**  From `K = 1290` on that loop overflows, though up to `K = 46339` all its values are fractions of `int`s. -/
theorem C163_refuted : ¬ C163 := by
  intro h
  obtain ⟨σ, e, -⟩ := telescope_rational 1290 (by norm_num) (by norm_num) 1300 (by norm_num)
  have := h 1300 (telescope 1290) (by simp only [telescope, Every, Typed]; decide)
  rw [e] at this
  obtain ⟨st, e', -⟩ := this
  rw [(C163_telescope_partial 1290 (by norm_num) (by decide) 1300 (by norm_num) (by norm_num)).2 (by norm_num)] at e'
  cases e'

/-- **C163, no wrong value.**  Whatever a program without the three statements leaves in its variables is canonical and what the
same program computes over the rational numbers in the same number of steps.  It ends by itself only where it divides by 0, and
runs on only where the program over the rational numbers runs on. -/
theorem C163_sound_partial (n : Nat) (p : Loop) (ht : Every Typed p) (hp : Every Plain p) :
    match runL n (fun _ => ⟨0, 1⟩) p with
    | .ok st => (∀ x, Canonical (st x)) ∧ runR anything n (fun _ => 0) p = .ends fun x => val (st x)
    | .exit => runR anything n (fun _ => 0) p = .zero
    | .diverge => runR anything n (fun _ => 0) p = .more
    | .ub => True := by
  have h := runL_right n p (fun _ => ⟨0, 1⟩) (fun _ => ofInt_canonical 0 (by decide)) ht hp
  simp only [val_ofInt, Int.cast_zero] at h
  cases hr : runL n (fun _ => ⟨0, 1⟩) p <;> rw [hr] at h <;> exact h

/-- **C163, defined.**  As long as numerators, denominators and integer operands are at most 32767, a program without the three
statements is defined and does what it does over the rational numbers. -/
theorem C163_small_partial (n : Nat) (p : Loop) (hp : Every Plain p) :
    match runR (fitsIn 32767) n (fun _ => 0) p with
    | .ends σ => ∃ st, runL n (fun _ => ⟨0, 1⟩) p = .ok st ∧ (∀ x, Canonical (st x)) ∧ ∀ x, val (st x) = σ x
    | .zero => runL n (fun _ => ⟨0, 1⟩) p = .exit
    | .more => runL n (fun _ => ⟨0, 1⟩) p = .diverge
    | .large => True := by
  have h := runL_within n p (fun _ => ⟨0, 1⟩) (fun _ => ofInt_canonical 0 (by decide)) (fun _ => by rw [val_ofInt]; decide) hp
  simp only [val_ofInt, Int.cast_zero] at h
  cases hr : runR (fitsIn 32767) n (fun _ => 0) p with
  | ends σ =>
    rw [hr] at h
    obtain ⟨st, e, h1, -, h2⟩ := h
    exact ⟨st, e, h1, fun x => by rw [h2]⟩
  | zero => rw [hr] at h; exact h
  | more => rw [hr] at h; exact h
  | large => trivial

example : Every Typed (telescope 5) ∧ Every Plain (telescope 5) := by
  simp only [telescope, Every, Typed, Plain]
  decide

example : (do .ok ((← runL 20 (fun _ => ⟨0, 1⟩) (telescope 5)) 0)) = Out.ok ⟨5, 6⟩ := by decide +kernel

/-- `Fraction x(27), y(4), z(1, 2); while (x > y) { x = x * z; if (x < y) x = x - y; }` ends with `-5/8`. -/
def halving : Loop :=
  .seq (.stmt (.declInt 0 27)) (.seq (.stmt (.declInt 1 4)) (.seq (.stmt (.decl 2 1 2))
    (.loop .gt 0 1 (.seq (.stmt (.bin .mul 0 0 2)) (.cond .lt 0 1 (.stmt (.bin .sub 0 0 1)) (.stmt (.copy 0 0)))))))

example : Every Plain halving := by
  simp only [halving, Every, Plain]
  decide

example : (match runR (fitsIn 32767) 20 (fun _ => 0) halving with | .ends σ => decide (σ 0 = -5 / 8) | _ => false) = true ∧
    (do .ok ((← runL 20 (fun _ => ⟨0, 1⟩) halving) 0)) = Out.ok ⟨-5, 8⟩ := by decide +kernel

-- a division by 0 inside a loop, and a loop that does not end
example : (match runR (fitsIn 32767) 20 (fun _ => 0) (.loop .eq 0 1 (.stmt (.bin .div 0 0 1))) with | .zero => true | _ => false) = true ∧
    (match runR (fitsIn 32767) 20 (fun _ => 0) (.loop .eq 0 1 (.stmt (.bin .mul 0 0 1))) with | .more => true | _ => false) = true := by
  decide +kernel

end Fraction.Props
