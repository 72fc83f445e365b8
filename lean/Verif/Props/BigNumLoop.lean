import Verif.Proof.BigNumLoop

/-!
# C160: programs with conditions and loops over `BigNum<N>`

Full claim: whenever all numbers fit, a program with conditions and loops computes what it computes over the integers.  False, as
in C135: a variable that gets shorter keeps its old digits above the new ones.  Proved for programs whose variables never get
shorter, and for two such programs for all inputs.
-/

namespace BigNum
open Cpp Spec

/-- The property C160. -/
def C160 : Prop :=
  ∀ (N fuel : Nat) (p : Prog) (σ : Nat → Int), Runs (FitsIn N) (fun _ => 0) p σ →
    ∃ n st, runP N (fuel + 2) n (fun _ => zero N) p = .ok st ∧ ∀ x, val (st x) = σ x

/-- **C160, refuted.**  The sum of the numbers from 10 down to 1 is found to be 145. -/
theorem C160_refuted : ¬ C160 := by
  intro h
  have h1 : (runI (FitsIn 5) 30 (fun _ => 0) (sumDownProg 10)).map (fun σ => σ 0) = some 55 := by decide +kernel
  obtain ⟨σ, e1, e2⟩ := Option.map_eq_some_iff.1 h1
  obtain ⟨n, st, e3, e4⟩ := h 5 9 _ σ (runI_runs e1)
  have h2 : (do Out.ok (val ((← runP 5 (9 + 2) 30 (fun _ => zero 5) (sumDownProg 10)) 0))) = Out.ok 145 := by decide +kernel
  obtain ⟨st', e5, e6⟩ := Out.bind_eq_ok.1 h2
  have := runP_unique e3 e5
  subst this
  injection e6 with e6
  rw [e4 0, e2] at e6
  exact absurd e6 (by decide)

/-- **C160, what holds.**  If over the integers the program ends, all numbers fit and no variable ever gets shorter, the program
ends with the same values. -/
theorem C160_growing_partial (N fuel : Nat) (p : Prog) (σ : Nat → Int) (h : Runs (GrowsIn N) (fun _ => 0) p σ) :
    ∃ n st, runP N (fuel + 2) n (fun _ => zero N) p = .ok st ∧
      ∀ x, val (st x) = σ x ∧ (σ x ≠ 0 → toString (st x) = .ok (decimal (σ x))) := by
  obtain ⟨n, st, e, h'⟩ := runs_holds (fuel := fuel) h (fun _ => Holds.zero N)
  exact ⟨n, st, e, fun x => ⟨(h' x).val, (h' x).toString⟩⟩

/-- `BigNum<9> a(1), b(1), m(1000); while (b < m) { t = a; a = b; b = b + t; }` with `t` the variable 3 -/
example : ∃ σ, Runs (GrowsIn 9) (fun _ => 0) (.seq (.stmt (.decl 0 1)) (.seq (.stmt (.decl 1 1)) (.seq (.stmt (.decl 2 1000))
    (.loop .lt 1 2 (.seq (.stmt (.assign 3 0)) (.seq (.stmt (.assign 0 1)) (.stmt (.plus 1 1 3)))))))) σ ∧ σ 1 = 1597 := by
  have h1 : (runI (GrowsIn 9) 30 (fun _ => 0) (.seq (.stmt (.decl 0 1)) (.seq (.stmt (.decl 1 1)) (.seq (.stmt (.decl 2 1000))
    (.loop .lt 1 2 (.seq (.stmt (.assign 3 0)) (.seq (.stmt (.assign 0 1)) (.stmt (.plus 1 1 3))))))))).map (fun σ => σ 1) =
      some 1597 := by decide +kernel
  obtain ⟨σ, e1, e2⟩ := Option.map_eq_some_iff.1 h1
  exact ⟨σ, runI_runs e1, e2⟩

/-- **C160, a program.**  For every `k`, if `k!` and `k` have together at most `N` decimal places (and `N` is at most twenty
millions), the loop that multiplies ends with `k!`, and that is what is printed. -/
theorem C160_factorial_partial (N fuel k : Nat) (hN : N ≤ 20000000) (hp : places (k.factorial : Int) + places k ≤ N) :
    ∃ n st, runP N (fuel + 2) n (fun _ => zero N) (factorialProg k) = .ok st ∧ val (st 0) = k.factorial ∧
      toString (st 0) = .ok (decimal k.factorial) := by
  obtain ⟨σ, hr, e0⟩ := factorial_runs hN hp
  obtain ⟨n, st, e, h⟩ := C160_growing_partial N fuel _ σ hr
  refine ⟨n, st, e, (h 0).1.trans e0, ?_⟩
  have := (h 0).2 (by rw [e0]; exact_mod_cast (Nat.factorial_pos k).ne')
  rw [this, e0]

example : places (Nat.factorial 20 : Int) + places 20 ≤ 21 ∧ (Nat.factorial 20 : Int) = 2432902008176640000 := by decide +kernel

/-- **C160, a program.**  For every `k`, the loop that adds the numbers from 1 up to `k` ends with `k (k + 1) / 2` if that has
fewer than `N` decimal places. -/
theorem C160_sum_partial (N fuel k : Nat) (hN : 1 < N) (hp : places ((k * (k + 1) / 2 : Nat) : Int) < N) :
    ∃ n st, runP N (fuel + 2) n (fun _ => zero N) (sumProg k) = .ok st ∧ val (st 0) = ((k * (k + 1) / 2 : Nat) : Int) := by
  obtain ⟨σ, hr, e0⟩ := sum_runs hp hN
  obtain ⟨n, st, e, h⟩ := C160_growing_partial N fuel _ σ hr
  exact ⟨n, st, e, (h 0).1.trans e0⟩

example : places ((1000 * (1000 + 1) / 2 : Nat) : Int) < 7 := by decide +kernel

end BigNum
