import Verif.Proof.FractionSwap
import Verif.Props.FractionProg

/-! # C153: what programs with `n - y` and `n / y` compute -/

namespace Fraction.Props
open Cpp Spec

/-- C153 (exact values with `n - y` and `n / y`): whatever a program without `x /= y` leaves in its variables is canonical, and it is
what the program computes over the rational numbers if every `n - y` means `y - n` and every `n / y` means `y / n`.  It ends by
itself only where, understood like this, it divides by 0; there is no endless loop. -/
theorem C153_swapped_partial (p : Prog) (ht : All Typed p) (hp : All NoDivAssign p) :
    (∀ st, p.run (fun _ => ⟨0, 1⟩) = .ok st →
      (∀ x, Canonical (st x)) ∧ swappedRun p (fun _ => 0) = some fun x => val (st x)) ∧
    (p.run (fun _ => ⟨0, 1⟩) = .exit → swappedRun p (fun _ => 0) = none) ∧ p.run (fun _ => ⟨0, 1⟩) ≠ .diverge := by
  have := C153_sound_partial (swapProg p) ((swap_all p).1 ht) ((swap_all p).2 hp)
  rwa [swap_run, swap_spec] at this

/-- `Fraction x(1, 3); x = 2 - x; if (x < y) x = 5 / x; else x = x / 0;` gives -1/3: 2 - 1/3 is computed as 1/3 - 2 = -5/3, which
is less than 0, and 5 / x as -5/3 / 5. -/
def swaps : Prog :=
  .step (.decl 0 1 3) (.step (.left .sub 0 2 0) (.branch .lt 0 1 (.step (.left .div 0 5 0) .done) (.step (.right .div 0 0 0) .done)))

example : All Typed swaps ∧ All NoDivAssign swaps := by
  simp only [swaps, All, Typed, NoDivAssign]
  decide

example : (do .ok ((← swaps.run (fun _ => ⟨0, 1⟩)) 0)) = Out.ok ⟨-1, 3⟩ := by decide +kernel

example : (swappedRun swaps (fun _ => 0)).map (fun r => r 0) = some (-1 / 3) := by decide +kernel

end Fraction.Props
