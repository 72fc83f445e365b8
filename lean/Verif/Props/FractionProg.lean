import Verif.Proof.FractionProg

/-!
# C153: a program computes with `Fraction` variables what it computes over the rational numbers

Full claim: whenever all values have numerators and denominators in the range of `int`, every program ends and its variables
hold the rational numbers the same program computes; a division by 0 ends the program.  False for three statements that compute
something else (`x /= y`, `n - y`, `n / y`), and because products of numerators and denominators overflow before they are
reduced.  Proved: without the three statements no program ever gives a wrong value, takes a wrong branch or ends without a
division by 0; and with numerators and denominators up to 32767 nothing overflows.
-/

namespace Fraction.Props
open Cpp Spec

/-- The property C153. -/
def C153 : Prop :=
  ∀ p : Prog, All Typed p → Fits 2147483647 p (fun _ => 0) →
    match Spec.run p (fun _ => 0) with
    | some r => ∃ st, p.run (fun _ => ⟨0, 1⟩) = .ok st ∧ ∀ x, val (st x) = r x
    | none => p.run (fun _ => ⟨0, 1⟩) = .exit

/-- C153 is false: `Fraction x(1, 65536); x = x + x;` overflows, though 1/65536 and 1/32768 are fractions of `int`s. -/
theorem C153_overflow_refuted : ¬ C153 := by
  intro h
  have h1 := h (.step (.decl 0 1 65536) (.step (.bin .add 0 0 0) .done)) ⟨⟨by decide, by decide⟩, trivial, trivial⟩ ⟨⟨by decide, by decide⟩, ?_⟩
  · have e : Spec.run (.step (.decl 0 1 65536) (.step (.bin .add 0 0 0) .done)) (fun _ => 0) =
        some (Function.update (Function.update (fun _ => 0) 0 (1 / 65536)) 0 (1 / 32768)) := by
      simp [Spec.run, Spec.value, Spec.eval, Stmt.target]
      norm_num
    rw [e] at h1
    obtain ⟨st, e1, -⟩ := h1
    have e2 : (match (Prog.step (.decl 0 1 65536) (.step (.bin .add 0 0 0) .done)).run (fun _ => ⟨0, 1⟩) with
      | .ub => true | _ => false) = true := by decide +kernel
    rw [e1] at e2
    simp at e2
  · intro v hv
    simp [Spec.value, Spec.eval] at hv
    subst hv
    refine ⟨by decide +kernel, trivial, fun v hv => ?_⟩
    simp [Spec.value, Spec.eval, Stmt.target] at hv
    subst hv
    refine ⟨?_, trivial⟩
    norm_num
    decide +kernel

/-- C153 is also false because of three statements, however small the numbers: `Fraction x(1, 2); x = 1 - x;` gives `-1/2`,
`Fraction x(1, 2); x = 1 / x;` gives `1/2`, and `Fraction x(5, 3), y(2, 3); x /= y;` gives `2`. -/
theorem C153_statements_refuted :
    (do .ok ((← (Prog.step (.decl 0 1 2) (.step (.left .sub 0 1 0) .done)).run (fun _ => ⟨0, 1⟩)) 0)) = Out.ok ⟨-1, 2⟩ ∧
    (do .ok ((← (Prog.step (.decl 0 1 2) (.step (.left .div 0 1 0) .done)).run (fun _ => ⟨0, 1⟩)) 0)) = Out.ok ⟨1, 2⟩ ∧
    (do .ok ((← (Prog.step (.decl 0 5 3) (.step (.decl 1 2 3) (.step (.assign .div 0 1) .done))).run (fun _ => ⟨0, 1⟩)) 0)) =
      Out.ok ⟨2, 1⟩ := by decide +kernel

/-- C153 (no wrong value): whatever a program without the three statements leaves in its variables is canonical and what the
same program computes over the rational numbers, however large the numbers are.  It ends by itself only where it divides by 0,
and it has no endless loop. -/
theorem C153_sound_partial (p : Prog) (ht : All Typed p) (hp : All Plain p) :
    (∀ st, p.run (fun _ => ⟨0, 1⟩) = .ok st →
      (∀ x, Canonical (st x)) ∧ Spec.run p (fun _ => 0) = some fun x => val (st x)) ∧
    (p.run (fun _ => ⟨0, 1⟩) = .exit → Spec.run p (fun _ => 0) = none) ∧ p.run (fun _ => ⟨0, 1⟩) ≠ .diverge := by
  have := run_right p (fun _ => ⟨0, 1⟩) (fun _ => ofInt_canonical 0 (by decide)) ht hp
  simpa [val_ofInt] using this

/-- C153 (defined): with numerators, denominators and integer operands up to 32767 a program without the three statements is
defined; it gives what it computes over the rational numbers, and ends where it divides by 0. -/
theorem C153_small_partial (p : Prog) (hp : All Plain p) (hf : Fits 32767 p (fun _ => 0)) :
    match Spec.run p (fun _ => 0) with
    | some r => ∃ st, p.run (fun _ => ⟨0, 1⟩) = .ok st ∧ (∀ x, Canonical (st x)) ∧ ∀ x, val (st x) = r x
    | none => p.run (fun _ => ⟨0, 1⟩) = .exit := by
  have := run_within p (fun _ => ⟨0, 1⟩) (fun _ => ofInt_canonical 0 (by decide)) hp
    (fun _ => by rw [val_ofInt]; decide) (by simpa [val_ofInt] using hf)
  simp only [val_ofInt, Int.cast_zero] at this
  cases h : Spec.run p (fun _ => 0) with
  | some r => rw [h] at this; exact this
  | none => rw [h] at this; exact this

/-- `Fraction s, x(1, 2); s += x; x *= x; s += x; if (s < x) s = s / 0; else s = 1 + s;` -/
def powers : Prog :=
  .step (.decl 1 1 2) (.step (.assign .add 0 1) (.step (.assign .mul 1 1) (.step (.assign .add 0 1)
    (.branch .lt 0 1 (.step (.right .div 0 0 0) .done) (.step (.left .add 0 1 0) .done)))))

example : All Typed powers ∧ All Plain powers := by
  simp only [powers, All, Typed, Plain]
  decide

example : (do .ok ((← powers.run (fun _ => ⟨0, 1⟩)) 0)) = Out.ok ⟨7, 4⟩ := by decide +kernel

example : Fits 32767 powers (fun _ => 0) := by
  simp [powers, Fits, Consts, Spec.value, Spec.eval, Stmt.target, holds]
  norm_num
  decide +kernel

-- `Fraction x(3, 4); x = x / 0;`
example : (match Prog.run (.step (.decl 0 3 4) (.step (.right .div 0 0 0) .done)) (fun _ => ⟨0, 1⟩) with
    | .exit => true | _ => false) = true := by decide +kernel

end Fraction.Props
