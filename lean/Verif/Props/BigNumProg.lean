import Verif.Proof.BigNumProg

/-!
# C135: a program computes with `BigNum<N>` variables what it computes over the integers

Full claim: whenever all numbers fit, the variables hold after every program the integers the same program computes.
False: a variable that gets shorter keeps its old digits above the new ones, and the next operation reads them.
What is missing is exactly that: the claim is proved for programs whose variables never get shorter.
-/

namespace BigNum
open Cpp Spec

/-- The property C135: the variables hold what the same program computes over the integers. -/
def C135 : Prop :=
  ∀ (N fuel : Nat) (p : List Stmt), Fits N (fun _ => 0) p →
    ∃ st, execs N (fuel + 2) (fun _ => zero N) p = .ok st ∧ ∀ x, val (st x) = evals (fun _ => 0) p x

/-- C135 is false: `BigNum<5> x(10); --x; x += 10;` leaves 29 in `x`, not 19. -/
theorem C135_refuted : ¬C135 := by
  intro h
  obtain ⟨st, e, hv⟩ := h 5 9 [.decl 0 10, .dec 0, .plusEqInt 0 10] (by decide +kernel)
  have h1 : (do Out.ok (val ((← execs 5 (9 + 2) (fun _ => zero 5) [.decl 0 10, .dec 0, .plusEqInt 0 10]) 0))) = Out.ok 29 := by
    decide +kernel
  rw [e, Out.ok_bind, hv 0] at h1
  exact absurd h1 (by decide +kernel)

/-- Nor can a variable be assigned to itself: `BigNum<5> x(10); x = x;` is undefined (`memcpy` of overlapping memory). -/
theorem C135_self_refuted : execs 5 11 (fun _ => zero 5) [.decl 0 10, .assign 0 0] = .ub := by
  have h : (match execs 5 11 (fun _ => zero 5) [.decl 0 10, .assign 0 0] with | .ub => true | _ => false) = true := by decide +kernel
  revert h
  generalize execs 5 11 (fun _ => zero 5) [.decl 0 10, .assign 0 0] = o
  cases o <;> simp

/-- Programs whose variables never get shorter, and without self-assignment, compute what they compute over the integers, and print it. -/
theorem C135_growing_partial (N fuel : Nat) (p : List Stmt) (hf : Fits N (fun _ => 0) p) (hg : Growing (fun _ => 0) p) :
    ∃ st, execs N (fuel + 2) (fun _ => zero N) p = .ok st ∧
      ∀ x, val (st x) = evals (fun _ => 0) p x ∧
        (evals (fun _ => 0) p x ≠ 0 → toString (st x) = .ok (decimal (evals (fun _ => 0) p x))) := by
  obtain ⟨st, e, h⟩ := execs_holds (N := N) (fuel := fuel) p (fun _ => Holds.zero N) hf hg
  exact ⟨st, e, fun x => ⟨(h x).val, (h x).toString⟩⟩

/-- `BigNum<12> f(1); f *= 2; … f *= 12; BigNum<12> a(1), b(1); a += b; b += a; … ` -/
def factorials : List Stmt :=
  [.decl 0 1, .timesEqInt 0 2, .timesEqInt 0 3, .timesEqInt 0 4, .timesEqInt 0 5, .timesEqInt 0 6, .timesEqInt 0 7,
   .timesEqInt 0 8, .timesEqInt 0 9, .timesEqInt 0 10, .timesEqInt 0 11, .timesEqInt 0 12,
   .decl 1 1, .decl 2 1, .plusEq 1 2, .plusEq 2 1, .plusEq 1 2, .plusEq 2 1, .plusEq 1 2,
   .assign 3 1, .inc 3, .times 4 0 3, .minus 5 4 0, .dec 5, .minusEqInt 5 7]

example : Fits 12 (fun _ => 0) factorials ∧ Growing (fun _ => 0) factorials ∧
    evals (fun _ => 0) factorials 0 = 479001600 ∧ evals (fun _ => 0) factorials 5 = 6227020792 := by
  decide +kernel

end BigNum
