import Verif.Proof.FractionActual

/-! # C153, C163: what every program over fractions computes -/

namespace Fraction.Props
open Cpp Spec

/-- **C153, exact values for every program.**  Whatever a program leaves in its variables is canonical, and what it computes over the
rational numbers if `n - y` means `y - n`, `n / y` means `y / n` and `x /= y` divides the components towards 0.  It ends by itself
only where, understood like this, there is a quotient by 0; there is no endless loop. -/
theorem C153_actual_partial (p : Prog) (ht : All Typed p) :
    (∀ st, p.run (fun _ => ⟨0, 1⟩) = .ok st →
      (∀ x, Canonical (st x)) ∧ actualRun p (fun _ => 0) = some fun x => val (st x)) ∧
    (p.run (fun _ => ⟨0, 1⟩) = .exit → actualRun p (fun _ => 0) = none) ∧ p.run (fun _ => ⟨0, 1⟩) ≠ .diverge := by
  have h := run_actual p (fun _ => ⟨0, 1⟩) (fun _ => ofInt_canonical 0 (by decide)) ht
  simpa only [val_ofInt, Int.cast_zero] using h

/-- **C163, exact values for every program.**  The same for programs with loops, which run exactly as often as with these values. -/
theorem C163_actual_partial (n : Nat) (p : Loop) (ht : Every Typed p) :
    match runL n (fun _ => ⟨0, 1⟩) p with
    | .ok st => (∀ x, Canonical (st x)) ∧ actualLoop anything n (fun _ => 0) p = .ends fun x => val (st x)
    | .exit => actualLoop anything n (fun _ => 0) p = .zero
    | .diverge => actualLoop anything n (fun _ => 0) p = .more
    | .ub => True := by
  have h := runL_actual n p (fun _ => ⟨0, 1⟩) (fun _ => ofInt_canonical 0 (by decide)) ht
  simp only [val_ofInt, Int.cast_zero] at h
  cases hr : runL n (fun _ => ⟨0, 1⟩) p <;> rw [hr] at h <;> exact h

/-- **C163, every program within 32767 is defined.**  As long as numerators, denominators and integer operands are at most 32767 (with
the values the library computes) and nothing is divided by 0 with `/=`, every program is defined and gives these values, in the same
number of steps. -/
theorem C163_actual_small_partial (n : Nat) (p : Loop) :
    match actualLoop (actualFits 32767) n (fun _ => 0) p with
    | .ends σ => ∃ st, runL n (fun _ => ⟨0, 1⟩) p = .ok st ∧ (∀ x, Canonical (st x)) ∧ ∀ x, val (st x) = σ x
    | .zero => runL n (fun _ => ⟨0, 1⟩) p = .exit
    | .more => runL n (fun _ => ⟨0, 1⟩) p = .diverge
    | .large => True := by
  have h := runL_actualFits n p (fun _ => ⟨0, 1⟩) (fun _ => ofInt_canonical 0 (by decide)) (fun _ => by rw [val_ofInt]; decide)
  simp only [val_ofInt, Int.cast_zero] at h
  cases hr : actualLoop (actualFits 32767) n (fun _ => 0) p with
  | ends σ =>
    rw [hr] at h
    obtain ⟨st, e, h1, -, h2⟩ := h
    exact ⟨st, e, h1, fun x => by rw [h2]⟩
  | zero => rw [hr] at h; exact h
  | more => rw [hr] at h; exact h
  | large => trivial

/-- `Fraction x(7, 9), y(2, 5); x /= y; x = 1 - x;` gives 2: 7/9 divided by 2/5 is computed as (7 / 2) / (9 / 5) = 3. -/
def quotients : Prog :=
  .step (.decl 0 7 9) (.step (.decl 1 2 5) (.step (.assign .div 0 1) (.step (.left .sub 0 1 0) .done)))

example : All Typed quotients := by
  simp only [quotients, All, Typed]
  decide

example : (do .ok ((← quotients.run (fun _ => ⟨0, 1⟩)) 0)) = Out.ok ⟨2, 1⟩ ∧
    (actualRun quotients (fun _ => 0)).map (fun r => r 0) = some 2 := by decide +kernel

/-- `Fraction x(20), y(3), z(1); while (x > z) x /= y;` ends with 0: 20, 6, 2, 0. -/
def thirds : Loop :=
  .seq (.stmt (.declInt 0 20)) (.seq (.stmt (.declInt 1 3)) (.seq (.stmt (.declInt 2 1)) (.loop .gt 0 2 (.stmt (.assign .div 0 1)))))

example : Every Typed thirds := by
  simp only [thirds, Every, Typed]
  decide

example : (do .ok ((← runL 20 (fun _ => ⟨0, 1⟩) thirds) 0)) = Out.ok ⟨0, 1⟩ ∧
    (match actualLoop anything 20 (fun _ => 0) thirds with | .ends σ => decide (σ 0 = 0) | _ => false) = true := by decide +kernel

example : (match actualLoop (actualFits 32767) 20 (fun _ => 0) thirds with | .ends σ => decide (σ 0 = 0) | _ => false) = true := by
  decide +kernel

-- `x /= y` with `y = 0` is not admitted, a denominator divided to 0 ends the program
example : (match actualLoop (actualFits 32767) 20 (fun _ => 0) (.stmt (.assign .div 0 1)) with | .large => true | _ => false) = true ∧
    (match actualLoop (actualFits 32767) 20 (fun _ => 0) (.seq (.stmt (.decl 1 1 2)) (.stmt (.assign .div 0 1))) with
      | .zero => true | _ => false) = true := by
  decide +kernel

end Fraction.Props
